import Verif.Lemmas.TmatDevice
import Verif.Lemmas.Stack

/-!
# Consequences used by the T-matrix properties, and a concrete lattice
-/

set_option linter.unusedSectionVars false
set_option linter.unusedSimpArgs false

namespace Khepri

open Matrix Complex

section Neutral
variable {n : Type} [Fintype n] [DecidableEq n]

theorem blocks_one : (1 : Matrix (n ⊕ n) (n ⊕ n) ℂ).toBlocks₁₁ = 1 ∧ (1 : Matrix (n ⊕ n) (n ⊕ n) ℂ).toBlocks₁₂ = 0 ∧
    (1 : Matrix (n ⊕ n) (n ⊕ n) ℂ).toBlocks₂₁ = 0 ∧ (1 : Matrix (n ⊕ n) (n ⊕ n) ℂ).toBlocks₂₂ = 1 := by
  rw [← fromBlocks_one, toBlocks_fromBlocks₁₁, toBlocks_fromBlocks₁₂, toBlocks_fromBlocks₂₁, toBlocks_fromBlocks₂₂]
  exact ⟨rfl, rfl, rfl, rfl⟩

theorem matrixS_one : matrixS (1 : Matrix (n ⊕ n) (n ⊕ n) ℂ) = .ok 1 := by
  obtain ⟨e1, e2, e3, e4⟩ := blocks_one (n := n)
  rw [matrixS_eq_ok, e1, e2, e3, e4]
  simp [fromBlocks_one]

theorem tscatters_one {u v : n ⊕ n → ℂ} : TScatters (1 : Matrix (n ⊕ n) (n ⊕ n) ℂ) u v ↔ u = v := by
  rw [matrixS_relates matrixS_one, one_mulVec]

theorem multS_one (S : Matrix (n ⊕ n) (n ⊕ n) ℂ) : multS S 1 = .ok S := by
  obtain ⟨e1, e2, e3, e4⟩ := blocks_one (n := n)
  rw [multS_eq_ok, redheffer_eq_ok]
  constructor
  · simp [toSMat, e1, e2, e3, e4]
  · simp [toSMat, e1, e2, e3, e4, redhefferVal]

theorem one_multS (S : Matrix (n ⊕ n) (n ⊕ n) ℂ) : multS 1 S = .ok S := by
  obtain ⟨e1, e2, e3, e4⟩ := blocks_one (n := n)
  rw [multS_eq_ok, redheffer_eq_ok]
  constructor
  · simp [toSMat, e1, e2, e3, e4]
  · simp [toSMat, e1, e2, e3, e4, redhefferVal]

end Neutral

namespace TLattice
variable {pw : ℕ × ℕ} {a1 a2 : R2} {ei ee : PyNum} {l : TLattice} {jv1 : ℝ → ℝ} {wl : ℝ} {a b : ℝ}

/-- The orders at the centre of the grid are the only ones with a null reciprocal vector. -/
theorem g_zero_iff (h : TLattice.make pw a1 a2 ei ee = .ok l) (k : Fin (pw.1 * pw.2)) :
    (flatT pw l.gx k = 0 ∧ flatT pw l.gy k = 0) ↔ (k : ℕ) = pw.1 / 2 + pw.1 * (pw.2 / 2) := by
  obtain ⟨-, -, hb, -⟩ := make_fields h
  obtain ⟨hd, hb⟩ := reciproc_eq_ok.1 hb
  have hpi := Real.pi_pos
  have h0 : 0 < pw.1 := by
    rcases Nat.eq_zero_or_pos pw.1 with h0 | h0
    · exact absurd k.2 (by simp [h0])
    · exact h0
  simp only [flatT, (make_gx h _ _).1, (make_gx h _ _).2]
  rw [hb]
  simp only
  set D := a1.1 * a2.2 - a1.2 * a2.1 with hD
  set x : ℝ := (((k : ℕ) % pw.1 : ℕ) : ℝ) - ((pw.1 / 2 : ℕ) : ℝ) with hx
  set y : ℝ := (((k : ℕ) / pw.1 : ℕ) : ℝ) - ((pw.2 / 2 : ℕ) : ℝ) with hy
  have hc : 2 * Real.pi / D ≠ 0 := div_ne_zero (by positivity) hd
  have hxy : (a2.2 * (2 * Real.pi / D) * x + -a1.2 * (2 * Real.pi / D) * y = 0 ∧
      -a2.1 * (2 * Real.pi / D) * x + a1.1 * (2 * Real.pi / D) * y = 0) ↔ x = 0 ∧ y = 0 := by
    constructor
    · rintro ⟨e1, e2⟩
      have f1 : a2.2 * x - a1.2 * y = 0 := by
        have : (2 * Real.pi / D) * (a2.2 * x - a1.2 * y) = 0 := by linear_combination e1
        exact (mul_eq_zero.1 this).resolve_left hc
      have f2 : -a2.1 * x + a1.1 * y = 0 := by
        have : (2 * Real.pi / D) * (-a2.1 * x + a1.1 * y) = 0 := by linear_combination e2
        exact (mul_eq_zero.1 this).resolve_left hc
      constructor
      · have : D * x = 0 := by rw [hD]; linear_combination a1.1 * f1 + a1.2 * f2
        exact (mul_eq_zero.1 this).resolve_left hd
      · have : D * y = 0 := by rw [hD]; linear_combination a2.1 * f1 + a2.2 * f2
        exact (mul_eq_zero.1 this).resolve_left hd
    · rintro ⟨e1, e2⟩
      simp [e1, e2]
  rw [hxy, hx, hy, sub_eq_zero, sub_eq_zero, Nat.cast_inj, Nat.cast_inj]
  have hdm := Nat.mod_add_div (k : ℕ) pw.1
  constructor
  · rintro ⟨e1, e2⟩
    rw [← hdm, e1, e2]
  · intro e
    have hlt : pw.1 / 2 < pw.1 := by omega
    rw [e]
    constructor
    · rw [Nat.add_mul_mod_self_left, Nat.mod_eq_of_lt hlt]
    · rw [Nat.add_mul_div_left _ _ h0, Nat.div_eq_of_lt hlt, zero_add]

theorem coupling_uniform {islands : List (TShape × ℂ)} {host : ℂ} (f : ℂ → ℂ)
    (hu : ∀ d ∈ islands, d.1 = .uniform ∨ d.2 = host) :
    l.coupling jv1 islands host f = diagonal fun _ => f host := by
  ext i j
  have : (islands.map fun d => (f d.2 - f host) * d.1.coef jv1 l.area
      (flatT l.shape l.gx i - flatT l.shape l.gx j, flatT l.shape l.gy i - flatT l.shape l.gy j)).sum = 0 := by
    apply List.sum_eq_zero
    intro x hx
    obtain ⟨d, hd, rfl⟩ := List.mem_map.1 hx
    rcases hu d hd with e | e
    · simp [e, TShape.coef]
    · simp [e]
  rw [coupling, of_apply, this, add_zero, diagonal_apply]

end TLattice

/-- `exp` of a matrix diagonalised by `V`. -/
theorem exp_conj_diag {n : Type} [Fintype n] [DecidableEq n] {U V A : Matrix n n ℂ} {d : n → ℂ} (hUV : U * V = 1)
    (hVU : V * U = 1) (hA : A * V = V * diagonal d) (z : ℂ) :
    U * NormedSpace.exp (-(z • A)) * V = diagonal fun i => Complex.exp (-(z * d i)) := by
  have hu : IsUnit V := ⟨⟨V, U, hVU, hUV⟩, rfl⟩
  have hinv : V⁻¹ = U := Matrix.inv_eq_left_inv hUV
  have e : -(z • A) = V * (-(z • diagonal d)) * V⁻¹ := by
    rw [hinv]
    have : A = V * diagonal d * U := by rw [← hA, Matrix.mul_assoc, hVU, Matrix.mul_one]
    rw [this]
    simp [Matrix.mul_assoc, Matrix.mul_neg, Matrix.neg_mul, Matrix.mul_smul, Matrix.smul_mul]
  rw [e, Matrix.exp_conj _ _ hu, hinv]
  have : U * (V * NormedSpace.exp (-(z • diagonal d)) * U) * V = NormedSpace.exp (-(z • diagonal d)) := by
    calc _ = (U * V) * NormedSpace.exp (-(z • diagonal d)) * (U * V) := by simp only [Matrix.mul_assoc]
    _ = _ := by rw [hUV, Matrix.one_mul, Matrix.mul_one]
  rw [this]
  have e2 : -(z • diagonal d) = diagonal fun i => -(z * d i) := by
    ext i j
    by_cases hij : i = j
    · subst hij; simp
    · simp [hij]
  rw [e2, Matrix.exp_diagonal]
  congr 1
  funext i
  rw [Pi.coe_exp, ← Complex.exp_eq_exp_ℂ]

theorem transfer_add {n : Type} [Fintype n] [DecidableEq n] {U V : Matrix n n ℂ} (hVU : V * U = 1) (A : Matrix n n ℂ)
    (x y : ℂ) : (U * NormedSpace.exp (-(x • A)) * V) * (U * NormedSpace.exp (-(y • A)) * V) =
      U * NormedSpace.exp (-((x + y) • A)) * V := by
  rw [exp_neg_add]
  calc _ = U * NormedSpace.exp (-(x • A)) * (V * U) * NormedSpace.exp (-(y • A)) * V := by simp only [Matrix.mul_assoc]
    _ = _ := by rw [hVU, Matrix.mul_one]; simp only [Matrix.mul_assoc]

namespace TLattice
variable {pw : ℕ × ℕ} {a1 a2 : R2} {ei ee : PyNum} {l : TLattice} {jv1 : ℝ → ℝ} {wl : ℝ} {a b : ℝ}

/-- A layer of the incidence medium. -/
theorem uniform_layer (h : TLattice.make pw a1 a2 ei ee = .ok l) (hs : l.shape = pw) (h0 : 0 < pw.1 ∧ 0 < pw.2)
    {islands : List (TShape × ℂ)} {host : ℂ} (hu : ∀ d ∈ islands, d.1 = .uniform ∨ d.2 = host)
    (hi : ∀ d ∈ islands, d.2 ≠ 0) (ht : ∀ d ∈ islands, ∃ t, l.transform jv1 d.1 = .ok t)
    (hm : host = l.epsI.val) (he : l.epsI.val ≠ 0) (hw : wl ≠ 0) (hr : Rooted l.epsI)
    (hk : ∀ k, flatT l.shape (l.kz l.epsI wl (↑a, ↑b)) k ≠ 0) (hc : l.ClearDirs (↑a, ↑b)) (depth : ℝ) (k : ℕ) :
    tmatScattering jv1 l islands host wl (↑a, ↑b) depth k = .ok (diagonal (Sum.elim
      (Sum.elim (fun k => Complex.exp (I * flatT l.shape (l.kz l.epsI wl (↑a, ↑b)) k * depth))
        (fun k => Complex.exp (I * flatT l.shape (l.kz l.epsI wl (↑a, ↑b)) k * depth)))
      (Sum.elim (fun k => Complex.exp (I * flatT l.shape (l.kz l.epsI wl (↑a, ↑b)) k * depth))
        (fun k => Complex.exp (I * flatT l.shape (l.kz l.epsI wl (↑a, ↑b)) k * depth))))) := by
  obtain ⟨T, hT⟩ := slice_exists (jv1 := jv1) (kp := (↑a, ↑b)) h hs h0 (hm ▸ he) hi ht hw he hr hk depth k
  obtain ⟨U, V, hU, hV, -, -, -, hTe⟩ := slice_ok h hs hT
  have hUV := U_mul_Vi hU hV
  have hVU := Vi_mul_U hU hV
  rw [coupling_uniform id hu, coupling_uniform (fun x => 1 / x) hu, hm] at hTe
  have hA := tsystem_V hV hc
  rw [diagBlocks_diagonal] at hA
  simp only [id] at hTe
  generalize hAg : tsystem (l.wave (↑a, ↑b)) (diagonal fun _ => l.epsI.val) (diagonal fun _ => 1 / l.epsI.val)
    ((2 * Real.pi / wl : ℝ) : ℂ) = A at hA hTe
  have key : ∀ z : ℂ, U * NormedSpace.exp (-(z • A)) * V = diagonal (Sum.elim
      (Sum.elim (fun k => Complex.exp (-(z * (I * flatT l.shape (l.kz l.epsI wl (↑a, ↑b)) k))))
        (fun k => Complex.exp (-(z * (I * flatT l.shape (l.kz l.epsI wl (↑a, ↑b)) k)))))
      (Sum.elim (fun k => Complex.exp (z * (I * flatT l.shape (l.kz l.epsI wl (↑a, ↑b)) k)))
        (fun k => Complex.exp (z * (I * flatT l.shape (l.kz l.epsI wl (↑a, ↑b)) k))))) := by
    intro z
    rw [exp_conj_diag hUV hVU hA z]
    congr 1
    funext i
    rcases i with (i | i) | (i | i) <;> simp
  have hS : ∀ z : ℂ, matrixS (U * NormedSpace.exp (-(z • A)) * V) = .ok (diagonal (Sum.elim
      (Sum.elim (fun k => Complex.exp (z * (I * flatT l.shape (l.kz l.epsI wl (↑a, ↑b)) k)))
        (fun k => Complex.exp (z * (I * flatT l.shape (l.kz l.epsI wl (↑a, ↑b)) k))))
      (Sum.elim (fun k => Complex.exp (z * (I * flatT l.shape (l.kz l.epsI wl (↑a, ↑b)) k)))
        (fun k => Complex.exp (z * (I * flatT l.shape (l.kz l.epsI wl (↑a, ↑b)) k)))))) := by
    intro z
    rw [key z, matrixS_diagonal]
    · congr 3
      funext i
      rcases i with i | i <;> simp [Complex.exp_neg]
    · intro i
      rcases i with i | i <;> exact Complex.exp_ne_zero _
  have hdet : ∀ z : ℂ, (U * NormedSpace.exp (-(z • A)) * V).toBlocks₁₁.det ≠ 0 := fun z => (matrixS_eq_ok.1 (hS z)).1
  rw [tmatScattering, hT, ok_bind, hTe, hS, ok_bind, doubling_eq hVU (hS _) (fun j _ => hdet _), hS]
  have e : (2 : ℂ) ^ k * ((depth / 2 ^ k : ℝ) : ℂ) = depth := by
    push_cast
    field_simp
  rw [e]
  congr 3 <;> (funext i; rcases i with i | i <;> simp only [Sum.elim_inl, Sum.elim_inr] <;> congr 1 <;> ring)

theorem fluxes_scale {pin pout : TIdx l.shape → ℂ} {c : ℂ} (hc : c ≠ 0) (kp : ℂ × ℂ) :
    computeFluxes l wl (c • pin) (c • pout) kp = computeFluxes l wl pin pout kp := by
  have hn : ((‖c‖ : ℂ)) ≠ 0 := by simpa using hc
  have e : ∀ p q : ℂ, ((‖c * p‖ ^ 2 + ‖c * q‖ ^ 2 : ℝ) : ℂ) = (‖c‖ : ℂ) ^ 2 * ((‖p‖ ^ 2 + ‖q‖ ^ 2 : ℝ) : ℂ) := by
    intro p q
    rw [norm_mul, norm_mul]
    push_cast
    ring
  have hcur : computeCurrents l wl (c • pin) (c • pout) (0, 0) =
      (fun k => (‖c‖ : ℂ) ^ 2 * (computeCurrents l wl pin pout (0, 0)).1 k,
       fun k => (‖c‖ : ℂ) ^ 2 * (computeCurrents l wl pin pout (0, 0)).2.1 k,
       fun k => (‖c‖ : ℂ) ^ 2 * (computeCurrents l wl pin pout (0, 0)).2.2 k) := by
    simp only [computeCurrents, Pi.smul_apply, smul_eq_mul, e]
    refine Prod.ext ?_ (Prod.ext ?_ ?_) <;>
    · funext k
      simp only
      split_ifs
      · ring
      · simp
  unfold computeFluxes
  rw [hcur]
  simp only [← Finset.mul_sum]
  rcases hcc : computeCurrents l wl pin pout (0, 0) with ⟨j1, j2, j3⟩
  simp only
  have hz : ((‖c‖ : ℂ) ^ 2 * ∑ k, j1 k ≠ 0) = (∑ k, j1 k ≠ 0) := by
    simp [hc]
  simp only [hz, mul_div_mul_left _ _ (pow_ne_zero 2 hn)]

end TLattice

/-! ### A concrete lattice -/

/-- A square lattice of period 1. -/
theorem unit_tlattice (pw : ℕ × ℕ) (hp : pw.1 % 2 = pw.2 % 2) (ei ee : PyNum) :
    ∃ l, TLattice.make pw (1, 0) (0, 1) ei ee = .ok l ∧ l.b = ((2 * Real.pi, 0), (0, 2 * Real.pi)) := by
  refine ⟨_, TLattice.make_eq ei ee (reciproc_eq_ok.2 ⟨by norm_num, rfl⟩) hp, ?_⟩
  norm_num

/-- Its wave vectors are integer multiples of `2 pi`. -/
theorem unit_tlattice_g {pw : ℕ × ℕ} {ei ee : PyNum} {l : TLattice} (h : TLattice.make pw (1, 0) (0, 1) ei ee = .ok l)
    (hb : l.b = ((2 * Real.pi, 0), (0, 2 * Real.pi))) (i j : ℕ) :
    ∃ m n : ℤ, l.gx i j = 2 * Real.pi * m ∧ l.gy i j = 2 * Real.pi * n := by
  refine ⟨(i : ℤ) - (pw.1 / 2 : ℕ), (j : ℤ) - (pw.2 / 2 : ℕ), ?_, ?_⟩
  · rw [(TLattice.make_gx h i j).1, hb]
    generalize pw.1 / 2 = p, pw.2 / 2 = p'
    push_cast
    ring
  · rw [(TLattice.make_gx h i j).2, hb]
    generalize pw.1 / 2 = p, pw.2 / 2 = p'
    push_cast
    ring

/-- At normal incidence with wavelength 2 and a permittivity 1 or 9/4 no order is grazing. -/
theorem unit_tlattice_kz_sq {pw : ℕ × ℕ} {ei ee : PyNum} {l : TLattice} (h : TLattice.make pw (1, 0) (0, 1) ei ee = .ok l)
    (hb : l.b = ((2 * Real.pi, 0), (0, 2 * Real.pi))) (r : ℝ) (k : Fin (l.shape.1 * l.shape.2)) :
    ∃ N : ℕ, flatT l.shape (l.kz (.float r) 2 (0, 0)) k ^ 2 = (((r - 4 * N) * Real.pi ^ 2 : ℝ) : ℂ) := by
  obtain ⟨m, n, h1, h2⟩ := unit_tlattice_g h hb ((k : ℕ) % l.shape.1) ((k : ℕ) / l.shape.1)
  refine ⟨(m ^ 2 + n ^ 2).toNat, ?_⟩
  have hN : (((m ^ 2 + n ^ 2).toNat : ℕ) : ℝ) = (m : ℝ) ^ 2 + (n : ℝ) ^ 2 := by
    have : (((m ^ 2 + n ^ 2).toNat : ℕ) : ℤ) = m ^ 2 + n ^ 2 := Int.toNat_of_nonneg (by positivity)
    exact_mod_cast this
  rw [hN]
  simp only [flatT, TLattice.kz]
  rw [computeKz_sq, h1, h2]
  have hu : uNorm ((0 : ℂ) + ((2 * Real.pi * m : ℝ) : ℂ), (0 : ℂ) + ((2 * Real.pi * n : ℝ) : ℂ)) ^ 2 =
      4 * Real.pi ^ 2 * ((m : ℝ) ^ 2 + (n : ℝ) ^ 2) := by
    unfold uNorm
    rw [Real.sq_sqrt (by positivity), zero_add, zero_add, Complex.norm_real, Complex.norm_real, Real.norm_eq_abs,
      Real.norm_eq_abs, sq_abs, sq_abs]
    ring
  rw [← Complex.ofReal_pow]
  simp only at hu ⊢
  rw [← Complex.ofReal_pow, hu]
  simp only [PyNum.val]
  push_cast
  ring

theorem unit_tlattice_kz_ne {pw : ℕ × ℕ} {ei ee : PyNum} {l : TLattice} (h : TLattice.make pw (1, 0) (0, 1) ei ee = .ok l)
    (hb : l.b = ((2 * Real.pi, 0), (0, 2 * Real.pi))) {r : ℝ} (hr : r = 1 ∨ r = 9 / 4) (k : Fin (l.shape.1 * l.shape.2)) :
    flatT l.shape (l.kz (.float r) 2 (0, 0)) k ≠ 0 := by
  intro h0
  obtain ⟨N, hN⟩ := unit_tlattice_kz_sq h hb r k
  rw [h0, zero_pow two_ne_zero, eq_comm, Complex.ofReal_eq_zero, mul_eq_zero, or_iff_left (pow_ne_zero 2 Real.pi_ne_zero)] at hN
  have h16 : (16 * N : ℕ) = (4 : ℕ) ∨ (16 * N : ℕ) = (9 : ℕ) := by
    rcases hr with rfl | rfl
    · left
      have : (16 * N : ℝ) = 4 := by linarith
      exact_mod_cast this
    · right
      have : (16 * N : ℝ) = 9 := by linarith
      exact_mod_cast this
  omega

end Khepri
