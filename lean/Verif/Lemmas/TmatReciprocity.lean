import Verif.Spec.TmatReciprocity
import Verif.Lemmas.TmatPassive

/-!
Lorentz reciprocity of the layers of the T-matrix formulation.
-/

set_option linter.unusedSectionVars false

namespace Khepri

open Matrix Complex

section Form
variable {g : Type} [Fintype g] [DecidableEq g]

/-- The bilinear form is constant along opposite systems. -/
theorem lorentz_rate (u : g → ℂ × ℂ) (e ei : Matrix g g ℂ) (k0 : ℂ) (f f' : (g ⊕ g) ⊕ (g ⊕ g) → ℂ) :
    let d := tsystem u e ei k0 *ᵥ f
    let d' := tsystem (fun k => (-(u k).1, -(u k).2)) eᵀ eiᵀ k0 *ᵥ f'
    ∑ k, (((d' (.inl (.inl k)) * f (.inr (.inr k)) + f' (.inl (.inl k)) * d (.inr (.inr k))) -
        (d' (.inl (.inr k)) * f (.inr (.inl k)) + f' (.inl (.inr k)) * d (.inr (.inl k)))) -
      ((d (.inl (.inl k)) * f' (.inr (.inr k)) + f (.inl (.inl k)) * d' (.inr (.inr k))) -
        (d (.inl (.inr k)) * f' (.inr (.inl k)) + f (.inl (.inr k)) * d' (.inr (.inl k))))) = 0 := by
  intro d d'
  have hd := fun k => tsystem_mulVec u e ei k0 f k
  have hd' := fun k => tsystem_mulVec (fun k => (-(u k).1, -(u k).2)) eᵀ eiᵀ k0 f' k
  simp only [] at hd hd'
  set ex : g → ℂ := fun k => f (.inl (.inl k)) with hex
  set ey : g → ℂ := fun k => f (.inl (.inr k)) with hey
  set ex' : g → ℂ := fun k => f' (.inl (.inl k)) with hex'
  set ey' : g → ℂ := fun k => f' (.inl (.inr k)) with hey'
  set s : g → ℂ := fun j => (u j).1 * f (.inr (.inr j)) - (u j).2 * f (.inr (.inl j)) with hs
  set t : g → ℂ := fun j => -(u j).1 * f' (.inr (.inr j)) - -(u j).2 * f' (.inr (.inl j)) with ht
  have b1 : ∀ (M : Matrix g g ℂ) (x y : g → ℂ), ∑ k, x k * (M *ᵥ y) k = ∑ k, y k * (Mᵀ *ᵥ x) k := fun M x y => by
    have : x ⬝ᵥ M *ᵥ y = y ⬝ᵥ Mᵀ *ᵥ x := by rw [dotProduct_mulVec, ← mulVec_transpose, dotProduct_comm]
    exact this
  have key : ∀ k, (((d' (.inl (.inl k)) * f (.inr (.inr k)) + f' (.inl (.inl k)) * d (.inr (.inr k))) -
        (d' (.inl (.inr k)) * f (.inr (.inl k)) + f' (.inl (.inr k)) * d (.inr (.inl k)))) -
      ((d (.inl (.inl k)) * f' (.inr (.inr k)) + f (.inl (.inl k)) * d' (.inr (.inr k))) -
        (d (.inl (.inr k)) * f' (.inr (.inl k)) + f (.inl (.inr k)) * d' (.inr (.inl k))))) =
      I * mu0c / k0 * (s k * (eiᵀ *ᵥ t) k - t k * (ei *ᵥ s) k) +
        I / mu0c * k0 * ((ex' k * (e *ᵥ ex) k - ex k * (eᵀ *ᵥ ex') k) + (ey' k * (e *ᵥ ey) k - ey k * (eᵀ *ᵥ ey') k)) := by
    intro k
    simp only [d, d', (hd k).1, (hd k).2.1, (hd k).2.2.1, (hd k).2.2.2, (hd' k).1, (hd' k).2.1, (hd' k).2.2.1, (hd' k).2.2.2]
    have es : s k = (u k).1 * f (.inr (.inr k)) - (u k).2 * f (.inr (.inl k)) := rfl
    have et : t k = -(u k).1 * f' (.inr (.inr k)) - -(u k).2 * f' (.inr (.inl k)) := rfl
    have e1 : ex k = f (.inl (.inl k)) := rfl
    have e2 : ey k = f (.inl (.inr k)) := rfl
    have e3 : ex' k = f' (.inl (.inl k)) := rfl
    have e4 : ey' k = f' (.inl (.inr k)) := rfl
    rw [es, et, e1, e2, e3, e4]
    ring
  rw [Finset.sum_congr rfl fun k _ => key k, Finset.sum_add_distrib, ← Finset.mul_sum, ← Finset.mul_sum, Finset.sum_sub_distrib,
    Finset.sum_add_distrib, Finset.sum_sub_distrib, Finset.sum_sub_distrib, b1 ei t s, b1 e ex' ex, b1 e ey' ey]
  ring

end Form

section Rev
variable {N : ℕ}

/-- Fields listed in the opposite numbering of orders. -/
def revField (f : (Fin N ⊕ Fin N) ⊕ (Fin N ⊕ Fin N) → ℂ) : (Fin N ⊕ Fin N) ⊕ (Fin N ⊕ Fin N) → ℂ :=
  fun i => f (Sum.map oppWave oppWave i)

theorem mulVec_rev {A B : Matrix (Fin N) (Fin N) ℂ} (h : ∀ i j, A i.rev j.rev = B i j) (x : Fin N → ℂ) (k : Fin N) :
    (A *ᵥ x) k.rev = (B *ᵥ fun j => x j.rev) k := by
  simp only [mulVec, dotProduct, ← h]
  exact (Equiv.sum_comp Fin.revPerm fun j => A k.rev j * x j).symm

theorem tsystem_rev {u u' : Fin N → ℂ × ℂ} {e e' ei ei' : Matrix (Fin N) (Fin N) ℂ} (k0 : ℂ)
    (hu : ∀ k : Fin N, u' k.rev = (-(u k).1, -(u k).2)) (he : ∀ i j : Fin N, e' i.rev j.rev = e j i)
    (hei : ∀ i j : Fin N, ei' i.rev j.rev = ei j i) (f : (Fin N ⊕ Fin N) ⊕ (Fin N ⊕ Fin N) → ℂ) :
    revField (tsystem u' e' ei' k0 *ᵥ f) = tsystem (fun k => (-(u k).1, -(u k).2)) eᵀ eiᵀ k0 *ᵥ revField f := by
  funext i
  have h2 : ∀ x (k : Fin N), (e' *ᵥ x) k.rev = (eᵀ *ᵥ fun j => x j.rev) k := fun x k => mulVec_rev (B := eᵀ) he x k
  have h3 : ∀ x (k : Fin N), (ei' *ᵥ x) k.rev = (eiᵀ *ᵥ fun j => x j.rev) k := fun x k => mulVec_rev (B := eiᵀ) hei x k
  rcases i with (k | k) | (k | k)
  · rw [(tsystem_mulVec _ eᵀ eiᵀ k0 (revField f) k).1]
    refine ((tsystem_mulVec u' e' ei' k0 f k.rev).1).trans ?_
    rw [h3]; simp only [hu]; rfl
  · rw [(tsystem_mulVec _ eᵀ eiᵀ k0 (revField f) k).2.1]
    refine ((tsystem_mulVec u' e' ei' k0 f k.rev).2.1).trans ?_
    rw [h3]; simp only [hu]; rfl
  · rw [(tsystem_mulVec _ eᵀ eiᵀ k0 (revField f) k).2.2.1]
    refine ((tsystem_mulVec u' e' ei' k0 f k.rev).2.2.1).trans ?_
    rw [h2]; simp only [hu]; rfl
  · rw [(tsystem_mulVec _ eᵀ eiᵀ k0 (revField f) k).2.2.2]
    refine ((tsystem_mulVec u' e' ei' k0 f k.rev).2.2.2).trans ?_
    rw [h2]; simp only [hu]; rfl

/-- Lorentz reciprocity inside a layer. -/
theorem tlorentz_const {u u' : Fin N → ℂ × ℂ} {e e' ei ei' : Matrix (Fin N) (Fin N) ℂ} {k0 : ℂ}
    (hu : ∀ k : Fin N, u' k.rev = (-(u k).1, -(u k).2)) (he : ∀ i j : Fin N, e' i.rev j.rev = e j i)
    (hei : ∀ i j : Fin N, ei' i.rev j.rev = ei j i) {f f' : ℝ → (Fin N ⊕ Fin N) ⊕ (Fin N ⊕ Fin N) → ℂ}
    (hf : ∀ z i, HasDerivAt (fun t => f t i) ((tsystem u e ei k0 *ᵥ f z) i) z)
    (hf' : ∀ z i, HasDerivAt (fun t => f' t i) ((tsystem u' e' ei' k0 *ᵥ f' z) i) z) (a b : ℝ) :
    tLorentz (f' a) (f a) = tLorentz (f' b) (f b) := by
  have hd : ∀ z, HasDerivAt (fun z => tLorentz (f' z) (f z)) 0 z := by
    intro z
    have h1 := HasDerivAt.fun_sum (u := Finset.univ) fun (k : Fin N) _ =>
      ((((hf' z (.inl (.inl k.rev))).mul (hf z (.inr (.inr k)))).sub ((hf' z (.inl (.inr k.rev))).mul (hf z (.inr (.inl k))))).sub
        (((hf z (.inl (.inl k))).mul (hf' z (.inr (.inr k.rev)))).sub ((hf z (.inl (.inr k))).mul (hf' z (.inr (.inl k.rev))))))
    refine HasDerivAt.congr_deriv h1 ?_
    have h2 := lorentz_rate u e ei k0 (f z) (revField (f' z))
    rw [← tsystem_rev k0 hu he hei] at h2
    exact h2
  exact is_const_of_deriv_eq_zero (fun t => (hd t).differentiableAt) (fun t => (hd t).deriv) a b

end Rev

theorem rev_div_mod {p q k : ℕ} (h : k < p * q) : (p * q - (k + 1)) % p = p - 1 - k % p ∧ (p * q - (k + 1)) / p = q - 1 - k / p := by
  have hp : 0 < p := Nat.pos_of_ne_zero fun h0 => by simp [h0] at h
  have hr := Nat.mod_lt k hp
  have hq : k / p < q := Nat.div_lt_of_lt_mul h
  have e : p * q - (k + 1) = (p - 1 - k % p) + p * (q - 1 - k / p) := by
    have h1 := Nat.div_add_mod k p
    obtain ⟨m, hm⟩ : ∃ m, q = k / p + 1 + m := ⟨q - (k / p + 1), by omega⟩
    have h2 : q - 1 - k / p = m := by omega
    rw [h2]
    have h3 : p * q = p * (k / p) + p + p * m := by
      conv_lhs => rw [hm]
      ring
    omega
  rw [e]
  refine ⟨?_, ?_⟩
  · rw [Nat.add_mul_mod_self_left, Nat.mod_eq_of_lt (by omega)]
  · rw [Nat.add_mul_div_left _ _ hp, Nat.div_eq_of_lt (by omega), zero_add]

namespace TLattice
variable {jv1 : ℝ → ℝ} {pw : ℕ × ℕ} {a1 a2 : R2} {ei ee : PyNum} {l : TLattice} {wl a b : ℝ}
  {islands : List (TShape × ℂ)} {host : ℂ}

theorem ord_rev (h1 : l.shape.1 % 2 = 1) (h2 : l.shape.2 % 2 = 1) (k : Fin (l.shape.1 * l.shape.2)) :
    l.ord k.rev = -l.ord k := by
  obtain ⟨e1, e2⟩ := rev_div_mod k.2
  have hq : (k : ℕ) / l.shape.1 < l.shape.2 := Nat.div_lt_of_lt_mul k.2
  have hr : (k : ℕ) % l.shape.1 < l.shape.1 := Nat.mod_lt _ (by omega)
  simp only [ord, Fin.val_rev, e1, e2, Prod.neg_mk, Prod.mk.injEq]
  constructor <;> omega

/-- Opposite orders of opposite in-plane wave vectors have opposite wave vectors. -/
theorem g_rev (h : TLattice.make pw a1 a2 ei ee = .ok l) (hs : l.shape = pw) (h1 : pw.1 % 2 = 1) (h2 : pw.2 % 2 = 1)
    (k : Fin (l.shape.1 * l.shape.2)) :
    flatT l.shape l.gx k.rev = -flatT l.shape l.gx k ∧ flatT l.shape l.gy k.rev = -flatT l.shape l.gy k := by
  have e1 := ord_wave h hs k
  have e2 := ord_wave h hs k.rev
  rw [ord_rev (by rw [hs]; exact h1) (by rw [hs]; exact h2)] at e2
  simp only [latticeVec, Prod.mk.injEq, Prod.fst_neg, Prod.snd_neg, Int.cast_neg] at e1 e2
  rw [e1.1, e1.2, e2.1, e2.2]
  constructor <;> ring

theorem coupling_rev (h : TLattice.make pw a1 a2 ei ee = .ok l) (hs : l.shape = pw) (h1 : pw.1 % 2 = 1) (h2 : pw.2 % 2 = 1)
    (f : ℂ → ℂ) (i j : Fin (l.shape.1 * l.shape.2)) :
    l.coupling jv1 islands host f i.rev j.rev = l.coupling jv1 islands host f j i := by
  have o := ord_rev (l := l) (by rw [hs]; exact h1) (by rw [hs]; exact h2)
  rw [coupling_eq h hs, coupling_eq h hs, o, o]
  congr 1
  abel

theorem layer_reciprocal (h : TLattice.make pw a1 a2 ei ee = .ok l) (hs : l.shape = pw) (h1 : pw.1 % 2 = 1) (h2 : pw.2 % 2 = 1)
    {depth : ℝ} {k k' : ℕ} {S V S' V' : Matrix (TIdx l.shape) (TIdx l.shape) ℂ}
    (hS : tmatScattering jv1 l islands host wl (↑a, ↑b) depth k = .ok S) (hV : l.V l.epsI wl (↑a, ↑b) = .ok V)
    (hS' : tmatScattering jv1 l islands host wl (((-a : ℝ) : ℂ), ((-b : ℝ) : ℂ)) depth k' = .ok S')
    (hV' : l.V l.epsI wl (((-a : ℝ) : ℂ), ((-b : ℝ) : ℂ)) = .ok V') : TReciprocal V V S V' V' S' := by
  intro u v u' v' hu hu'
  obtain ⟨f, hf, f0, f1⟩ := (layer_relates h hs hS hV u v).1 hu
  obtain ⟨f', hf', f0', f1'⟩ := (layer_relates h hs hS' hV' u' v').1 hu'
  rw [← f0, ← f1, ← f0', ← f1']
  refine tlorentz_const (fun k => ?_) (coupling_rev h hs h1 h2 id) (coupling_rev h hs h1 h2 (1 / ·)) hf hf' 0 depth
  obtain ⟨g1, g2⟩ := g_rev h hs h1 h2 k
  simp only [wave, g1, g2, Prod.mk.injEq]
  push_cast
  constructor <;> ring

theorem uNorm_neg (u : ℂ × ℂ) : uNorm (-u.1, -u.2) = uNorm u := by simp [uNorm]

theorem planarDir_neg (u : ℂ × ℂ) : planarDir (-u.1, -u.2) =
    ((if uNorm u ^ 2 < 1 / 2 ^ 52 then 1 else -1) * (planarDir u).1, (if uNorm u ^ 2 < 1 / 2 ^ 52 then 1 else -1) * (planarDir u).2) := by
  simp only [planarDir, uNorm_neg]
  split_ifs
  · simp
  · simp [neg_div]

theorem rev_wave (h : TLattice.make pw a1 a2 ei ee = .ok l) (hs : l.shape = pw) (h1 : pw.1 % 2 = 1) (h2 : pw.2 % 2 = 1)
    (k : Fin (l.shape.1 * l.shape.2)) :
    ((((-a : ℝ) : ℂ) + flatT l.shape l.gx k.rev, ((-b : ℝ) : ℂ) + flatT l.shape l.gy k.rev) : ℂ × ℂ) =
      (-((a : ℂ) + flatT l.shape l.gx k), -((b : ℂ) + flatT l.shape l.gy k)) := by
  obtain ⟨g1, g2⟩ := g_rev h hs h1 h2 k
  rw [g1, g2]
  push_cast
  ext <;> simp <;> ring

theorem dir_rev (h : TLattice.make pw a1 a2 ei ee = .ok l) (hs : l.shape = pw) (h1 : pw.1 % 2 = 1) (h2 : pw.2 % 2 = 1)
    (k : Fin (l.shape.1 * l.shape.2)) :
    l.dir (((-a : ℝ) : ℂ), ((-b : ℝ) : ℂ)) k.rev =
      (l.flip (↑a, ↑b) k * (l.dir (↑a, ↑b) k).1, l.flip (↑a, ↑b) k * (l.dir (↑a, ↑b) k).2) := by
  rw [dir, rev_wave h hs h1 h2, dir, flip]
  exact planarDir_neg (a + flatT l.shape l.gx k, b + flatT l.shape l.gy k)

theorem kz_rev (h : TLattice.make pw a1 a2 ei ee = .ok l) (hs : l.shape = pw) (h1 : pw.1 % 2 = 1) (h2 : pw.2 % 2 = 1)
    (eps : PyNum) (k : Fin (l.shape.1 * l.shape.2)) :
    flatT l.shape (l.kz eps wl (((-a : ℝ) : ℂ), ((-b : ℝ) : ℂ))) k.rev = flatT l.shape (l.kz eps wl (↑a, ↑b)) k := by
  have e := rev_wave (a := a) (b := b) h hs h1 h2 k
  have hn : uNorm (((-a : ℝ) : ℂ) + flatT l.shape l.gx k.rev, ((-b : ℝ) : ℂ) + flatT l.shape l.gy k.rev) =
      uNorm ((a : ℂ) + flatT l.shape l.gx k, (b : ℂ) + flatT l.shape l.gy k) := by
    rw [e]; exact uNorm_neg (a + flatT l.shape l.gx k, b + flatT l.shape l.gy k)
  simp only [flatT] at hn
  simp only [flatT, kz, computeKz, hn]

theorem lorentz_block {x y x' y' c hV σ : ℂ} (hxy : x ^ 2 + y ^ 2 = 1) (hx : x' = σ * x) (hy : y' = σ * y)
    (p0 p1 p2 p3 q0 q1 q2 q3 : ℂ) :
    let ex := y * p0 + -(c * x) * p1 + (y * p2 + c * x * p3)
    let ey := -x * p0 + -(c * y) * p1 + (-x * p2 + c * y * p3)
    let hx := hV * (c * x) * p0 + hV * y * p1 + (-hV * (c * x) * p2 + hV * y * p3)
    let hy := hV * (c * y) * p0 + hV * -x * p1 + (-hV * (c * y) * p2 + hV * -x * p3)
    let ex' := y' * q0 + -(c * x') * q1 + (y' * q2 + c * x' * q3)
    let ey' := -x' * q0 + -(c * y') * q1 + (-x' * q2 + c * y' * q3)
    let hx' := hV * (c * x') * q0 + hV * y' * q1 + (-hV * (c * x') * q2 + hV * y' * q3)
    let hy' := hV * (c * y') * q0 + hV * -x' * q1 + (-hV * (c * y') * q2 + hV * -x' * q3)
    (ex' * hy - ey' * hx) - (ex * hy' - ey * hx') =
      2 * (hV * c) * (σ * ((q2 * p0 - q0 * p2) - (q3 * p1 - q1 * p3))) := by
  subst hx hy
  intros
  linear_combination (2 * (hV * c) * (σ * ((q2 * p0 - q0 * p2) - (q3 * p1 - q1 * p3)))) * hxy

/-- The Lorentz form of the waves of a medium. -/
theorem lorentz_V (h : TLattice.make pw a1 a2 ei ee = .ok l) (hs : l.shape = pw) (h1 : pw.1 % 2 = 1) (h2 : pw.2 % 2 = 1)
    {eps : PyNum} {V V' : Matrix (TIdx l.shape) (TIdx l.shape) ℂ} (hV : l.V eps wl (↑a, ↑b) = .ok V)
    (hV' : l.V eps wl (((-a : ℝ) : ℂ), ((-b : ℝ) : ℂ)) = .ok V') (p q : TIdx l.shape → ℂ) :
    tLorentz (V' *ᵥ q) (V *ᵥ p) = wl / (Real.pi * mu0c) * ∑ k, flatT l.shape (l.kz eps wl (↑a, ↑b)) k * (l.flip (↑a, ↑b) k *
      ((q (.inr (.inl k.rev)) * p (.inl (.inl k)) - q (.inl (.inl k.rev)) * p (.inr (.inl k))) -
        (q (.inr (.inr k.rev)) * p (.inl (.inr k)) - q (.inl (.inr k.rev)) * p (.inr (.inr k))))) := by
  obtain ⟨hw, hr, rfl⟩ := V_ok hV
  obtain ⟨-, -, rfl⟩ := V_ok hV'
  rw [tLorentz, Finset.mul_sum]
  refine Finset.sum_congr rfl fun k _ => ?_
  obtain ⟨m1, m2, m3, m4⟩ := diagBlocks_mulVec (fun k => vBlock (l.dir (↑a, ↑b) k).1 (l.dir (↑a, ↑b) k).2
    (l.cosz eps wl (↑a, ↑b) k) (csqrt eps.val / mu0c)) p k
  obtain ⟨n1, n2, n3, n4⟩ := diagBlocks_mulVec (fun k => vBlock (l.dir (((-a : ℝ) : ℂ), ((-b : ℝ) : ℂ)) k).1
    (l.dir (((-a : ℝ) : ℂ), ((-b : ℝ) : ℂ)) k).2 (l.cosz eps wl (((-a : ℝ) : ℂ), ((-b : ℝ) : ℂ)) k) (csqrt eps.val / mu0c)) q k.rev
  rw [m1, m2, m3, m4, n1, n2, n3, n4]
  have hc : l.cosz eps wl (((-a : ℝ) : ℂ), ((-b : ℝ) : ℂ)) k.rev = l.cosz eps wl (↑a, ↑b) k := by
    rw [cosz, cosz, kz_rev h hs h1 h2]
  have hd := dir_rev (a := a) (b := b) h hs h1 h2 k
  have hunit : (l.dir (↑a, ↑b) k).1 ^ 2 + (l.dir (↑a, ↑b) k).2 ^ 2 = 1 :=
    planarDir_unit (a + flatT l.shape l.gx k) (b + flatT l.shape l.gy k) (by simp)
  have hb := lorentz_block (c := l.cosz eps wl (↑a, ↑b) k) (hV := csqrt eps.val / mu0c) hunit
    (congrArg Prod.fst hd) (congrArg Prod.snd hd) (p (.inl (.inl k))) (p (.inl (.inr k))) (p (.inr (.inl k))) (p (.inr (.inr k)))
    (q (.inl (.inl k.rev))) (q (.inl (.inr k.rev))) (q (.inr (.inl k.rev))) (q (.inr (.inr k.rev)))
  simp only [hc]
  refine Eq.trans hb ?_
  have hwl : (wl : ℂ) ≠ 0 := by exact_mod_cast hw
  have hpi : (Real.pi : ℂ) ≠ 0 := by exact_mod_cast Real.pi_ne_zero
  have hmu : (mu0c : ℂ) ≠ 0 := by exact_mod_cast mu0c_pos.ne'
  rw [cosz]
  generalize csqrt eps.val = r at *
  push_cast
  field_simp

/-- The same, wave by wave. -/
theorem lorentz_waves (h : TLattice.make pw a1 a2 ei ee = .ok l) (hs : l.shape = pw) (h1 : pw.1 % 2 = 1) (h2 : pw.2 % 2 = 1)
    {eps : PyNum} {V V' : Matrix (TIdx l.shape) (TIdx l.shape) ℂ} (hV : l.V eps wl (↑a, ↑b) = .ok V)
    (hV' : l.V eps wl (((-a : ℝ) : ℂ), ((-b : ℝ) : ℂ)) = .ok V') (p q : TIdx l.shape → ℂ) :
    tLorentz (V' *ᵥ q) (V *ᵥ p) = wl / (Real.pi * mu0c) * ∑ i, l.weight eps wl (↑a, ↑b) i *
      (q (.inr (oppWave i)) * p (.inl i) - q (.inl (oppWave i)) * p (.inr i)) := by
  rw [lorentz_V h hs h1 h2 hV hV', Fintype.sum_sum_type, ← Finset.sum_add_distrib]
  congr 1
  refine Finset.sum_congr rfl fun k _ => ?_
  simp only [weight, oppWave, Sum.map_inl, Sum.map_inr]
  ring

end TLattice

section Entries
variable {n : Type} [Fintype n] [DecidableEq n]

/-- What enters determines the waves. -/
theorem tscatters_of (S : Matrix (n ⊕ n) (n ⊕ n) ℂ) (x : n ⊕ n → ℂ) :
    TScatters S (Sum.elim (fun i => x (.inl i)) fun i => (S *ᵥ x) (.inr i))
      (Sum.elim (fun i => (S *ᵥ x) (.inl i)) fun i => x (.inr i)) := by
  have hx : Sum.elim (fun i => x (.inl i)) (fun i => x (.inr i)) = x := by funext i; rcases i with i | i <;> rfl
  have h : (Sum.elim ((Sum.elim (fun i => x (.inl i)) fun i => (S *ᵥ x) (.inr i)) ∘ Sum.inl)
      ((Sum.elim (fun i => (S *ᵥ x) (.inl i)) fun i => x (.inr i)) ∘ Sum.inr) : n ⊕ n → ℂ) = x := by
    funext i; rcases i with i | i <;> rfl
  rw [TScatters, h]
  funext i; rcases i with i | i <;> rfl

/-- Entries of S-matrices whose bilinear forms agree on both sides. -/
theorem entries_of_forms {S S' : Matrix (n ⊕ n) (n ⊕ n) ℂ} {wI wE : n → ℂ} {ρ : n → n} (hρ : ∀ i, ρ (ρ i) = i)
    (h : ∀ u v u' v', TScatters S u v → TScatters S' u' v' →
      ∑ i, wI i * (u' (.inr (ρ i)) * u (.inl i) - u' (.inl (ρ i)) * u (.inr i)) =
        ∑ i, wE i * (v' (.inr (ρ i)) * v (.inl i) - v' (.inl (ρ i)) * v (.inr i))) (x y : n ⊕ n) :
    Sum.elim wI wE x * S' (Sum.map ρ ρ x).swap (Sum.map ρ ρ y) = Sum.elim wI wE y * S y.swap x := by
  have key := h _ _ _ _ (tscatters_of S (Pi.single x 1)) (tscatters_of S' (Pi.single (Sum.map ρ ρ y) 1))
  simp only [Sum.elim_inl, Sum.elim_inr, mulVec_single_one, col_apply] at key
  have hinj : ∀ i j, ρ i = ρ j ↔ i = j := fun i j => ⟨fun e => by rw [← hρ i, e, hρ], fun e => by rw [e]⟩
  rcases x with x | x <;> rcases y with y | y <;>
    simp [Pi.single_apply, hinj, mul_sub, Finset.sum_sub_distrib, sub_eq_zero, zero_sub, neg_eq_iff_eq_neg] at key ⊢ <;>
    first | linear_combination key | linear_combination -key

end Entries

end Khepri
