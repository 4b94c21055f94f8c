import Verif.Lemmas.TmatGrid
import Verif.Lemmas.Energy

/-!
Layers of the T-matrix formulation.
-/

set_option linter.unusedSectionVars false

namespace Khepri

open Matrix Complex

section System
variable {g : Type} [Fintype g] [DecidableEq g]

/-- The matrix of `matrix_a`. -/
noncomputable def tsystem (u : g → ℂ × ℂ) (e ei : Matrix g g ℂ) (c1 : ℂ) :
    Matrix ((g ⊕ g) ⊕ (g ⊕ g)) ((g ⊕ g) ⊕ (g ⊕ g)) ℂ :=
  let ieo : ℂ := I / mu0c * c1
  let iseo : ℂ := I * mu0c / c1
  let imo : ℂ := I * mu0c * c1
  let ismo : ℂ := I / mu0c / c1
  let ux : g → ℂ := fun k => (u k).1
  let uy : g → ℂ := fun k => (u k).2
  let A02 := of fun i j => iseo * ux i * ei i j * uy j
  let A03 := diagonal (fun _ => imo) - of fun i j => iseo * ux i * ei i j * ux j
  let A12 := diagonal (fun _ => -imo) + of fun i j => iseo * uy i * ei i j * uy j
  let A13 := -of fun i j => iseo * uy i * ei i j * ux j
  let A20 := diagonal fun k => -ismo * (ux k * uy k)
  let A21 := (diagonal fun k => ismo * ux k ^ 2) - ieo • e
  let A30 := (diagonal fun k => -ismo * uy k ^ 2) + ieo • e
  let A31 := diagonal fun k => ismo * (ux k * uy k)
  fromBlocks 0 (fromBlocks A02 A03 A12 A13) (fromBlocks A20 A21 A30 A31) 0

theorem sum_mulVec (M : Matrix g g ℂ) (c : ℂ) (a b : g → ℂ) (i : g) (x : g → ℂ) :
    ∑ j, c * a i * M i j * b j * x j = c * a i * (M *ᵥ fun j => b j * x j) i := by
  simp only [mulVec, dotProduct, Finset.mul_sum]
  exact Finset.sum_congr rfl fun j _ => by ring

/-- The four quarters of `A f`. -/
theorem tsystem_mulVec (u : g → ℂ × ℂ) (e ei : Matrix g g ℂ) (c1 : ℂ) (f : (g ⊕ g) ⊕ (g ⊕ g) → ℂ) (k : g) :
    let ex := fun k => f (.inl (.inl k))
    let ey := fun k => f (.inl (.inr k))
    let hx := fun k => f (.inr (.inl k))
    let hy := fun k => f (.inr (.inr k))
    let w := ei *ᵥ fun j => (u j).1 * hy j - (u j).2 * hx j
    (tsystem u e ei c1 *ᵥ f) (.inl (.inl k)) =
      I * mu0c * c1 * hy k - I * mu0c / c1 * (u k).1 * w k ∧
    (tsystem u e ei c1 *ᵥ f) (.inl (.inr k)) =
      -(I * mu0c * c1) * hx k - I * mu0c / c1 * (u k).2 * w k ∧
    (tsystem u e ei c1 *ᵥ f) (.inr (.inl k)) =
      I / mu0c / c1 * (u k).1 * ((u k).1 * ey k - (u k).2 * ex k) - I / mu0c * c1 * (e *ᵥ ey) k ∧
    (tsystem u e ei c1 *ᵥ f) (.inr (.inr k)) =
      I / mu0c / c1 * (u k).2 * ((u k).1 * ey k - (u k).2 * ex k) + I / mu0c * c1 * (e *ᵥ ex) k := by
  intro ex ey hx hy w
  have hw : w = (ei *ᵥ fun j => (u j).1 * hy j) - ei *ᵥ fun j => (u j).2 * hx j := by
    rw [← mulVec_sub]; rfl
  have hf : f = Sum.elim (Sum.elim ex ey) (Sum.elim hx hy) := by
    funext i; rcases i with (i | i) | (i | i) <;> rfl
  have h1 : ∀ (a b x : g → ℂ) (i : g), ((of fun i j => I * mu0c / c1 * a i * ei i j * b j) *ᵥ x) i =
      I * mu0c / c1 * a i * (ei *ᵥ fun j => b j * x j) i := fun a b x i => by
    rw [mulVec, dotProduct]
    exact sum_mulVec ei _ a b i x
  rw [hf]
  simp only [tsystem, fromBlocks_mulVec, Sum.elim_comp_inl, Sum.elim_comp_inr, zero_mulVec, zero_add, add_zero,
    Sum.elim_inl, Sum.elim_inr, Pi.add_apply, sub_mulVec, add_mulVec, neg_mulVec, Pi.sub_apply, Pi.neg_apply,
    mulVec_diagonal, smul_mulVec, Pi.smul_apply, smul_eq_mul, h1, hw]
  refine ⟨by ring, by ring, by ring, by ring⟩

theorem vacuumImpedance_eq : vacuumImpedance = mu0c := by
  unfold vacuumImpedance vacuumPermeability lightSpeed mu0c
  norm_num

theorem tmaxwell_iff {u : g → ℂ × ℂ} {e ei : Matrix g g ℂ} {k0 : ℝ} (hk : k0 ≠ 0)
    {f : ℝ → (g ⊕ g) ⊕ (g ⊕ g) → ℂ} :
    TMaxwell u e ei k0 f ↔ ∀ z i, HasDerivAt (fun t => f t i) ((tsystem u e ei k0 *ᵥ f z) i) z := by
  unfold TMaxwell
  rw [vacuumImpedance_eq]
  have hk' : (k0 : ℂ) ≠ 0 := by exact_mod_cast hk
  have hm : (mu0c : ℂ) ≠ 0 := by exact_mod_cast mu0c_pos.ne'
  have hI := I_ne_zero
  constructor
  · intro h z i
    obtain ⟨d, Ez, Hz, Dz, hd, hEz, hk⟩ := h z
    have hD : Dz = fun k => -(mu0c / k0 : ℂ) * ((u k).1 * f z (.inr (.inr k)) - (u k).2 * f z (.inr (.inl k))) := by
      funext k
      obtain ⟨-, -, -, -, -, h6⟩ := hk k
      have : I * (k0 / mu0c) * Dz k = -(I * ((u k).1 * f z (.inr (.inr k)) - (u k).2 * f z (.inr (.inl k)))) := by
        linear_combination h6
      field_simp at this ⊢
      linear_combination this
    have hE : Ez = -(mu0c / k0 : ℂ) • (ei *ᵥ fun j => (u j).1 * f z (.inr (.inr j)) - (u j).2 * f z (.inr (.inl j))) := by
      rw [hEz, ← mulVec_smul, hD]
      rfl
    have key : d = tsystem u e ei k0 *ᵥ f z := by
      funext i
      rcases i with (k | k) | (k | k)
      · rw [(tsystem_mulVec u e ei k0 (f z) k).1]
        obtain ⟨h1, h2, h3, h4, h5, h6⟩ := hk k
        rw [hE] at h2
        simp only [Pi.smul_apply, smul_eq_mul] at h2
        linear_combination (norm := skip) h2
        field_simp
        ring
      · rw [(tsystem_mulVec u e ei k0 (f z) k).2.1]
        obtain ⟨h1, h2, h3, h4, h5, h6⟩ := hk k
        rw [hE] at h1
        simp only [Pi.smul_apply, smul_eq_mul] at h1
        linear_combination (norm := skip) -h1
        field_simp
        ring
      · rw [(tsystem_mulVec u e ei k0 (f z) k).2.2.1]
        obtain ⟨h1, h2, h3, h4, h5, h6⟩ := hk k
        linear_combination (norm := skip) h5 - (u k).1 / (k0 * mu0c) * h3
        field_simp
        ring
      · rw [(tsystem_mulVec u e ei k0 (f z) k).2.2.2]
        obtain ⟨h1, h2, h3, h4, h5, h6⟩ := hk k
        linear_combination (norm := skip) -h4 - (u k).2 / (k0 * mu0c) * h3
        field_simp
        ring
    rw [← key]
    exact hd i
  · intro h z
    have hE : ei *ᵥ (fun k => -(mu0c / k0 : ℂ) * ((u k).1 * f z (.inr (.inr k)) - (u k).2 * f z (.inr (.inl k)))) =
        -(mu0c / k0 : ℂ) • (ei *ᵥ fun j => (u j).1 * f z (.inr (.inr j)) - (u j).2 * f z (.inr (.inl j))) := by
      rw [← mulVec_smul]; rfl
    refine ⟨tsystem u e ei k0 *ᵥ f z,
      ei *ᵥ (fun k => -(mu0c / k0 : ℂ) * ((u k).1 * f z (.inr (.inr k)) - (u k).2 * f z (.inr (.inl k)))),
      fun k => ((u k).1 * f z (.inl (.inr k)) - (u k).2 * f z (.inl (.inl k))) / (k0 * mu0c),
      fun k => -(mu0c / k0 : ℂ) * ((u k).1 * f z (.inr (.inr k)) - (u k).2 * f z (.inr (.inl k))),
      fun i => h z i, rfl, fun k => ?_⟩
    obtain ⟨t1, t2, t3, t4⟩ := tsystem_mulVec u e ei k0 (f z) k
    beta_reduce
    rw [t1, t2, t3, t4, hE]
    simp only [Pi.smul_apply, smul_eq_mul]
    refine ⟨?_, ?_, ?_, ?_, ?_, ?_⟩
    all_goals field_simp
    all_goals ring

end System

/-! ### Linear systems with constant coefficients -/

section Flow
variable {n : Type} [Fintype n] [DecidableEq n]

theorem exp_smul_inverse (A : Matrix n n ℂ) (z : ℂ) :
    NormedSpace.exp (z • A) * NormedSpace.exp (-(z • A)) = 1 := by
  rw [Matrix.exp_neg]
  exact Matrix.mul_nonsing_inv _ ((Matrix.isUnit_iff_isUnit_det _).1 (Matrix.isUnit_exp _))

theorem flow_unique {A : Matrix n n ℂ} {f : ℝ → n → ℂ} (h : ∀ z i, HasDerivAt (fun t => f t i) ((A *ᵥ f z) i) z)
    (z : ℝ) : f z = NormedSpace.exp ((z : ℂ) • A) *ᵥ f 0 := by
  have hc : ∀ i, ∀ t : ℝ, HasDerivAt (fun t : ℝ => (NormedSpace.exp ((t : ℂ) • (-A)) *ᵥ f t) i) 0 t := by
    intro i t
    have he : ∀ j, HasDerivAt (fun τ : ℝ => NormedSpace.exp ((τ : ℂ) • (-A)) i j)
        ((-A * NormedSpace.exp ((t : ℂ) • (-A))) i j) t := by
      intro j
      have := hasDerivAt_exp_mulVec (-A) (Pi.single j 1) t i
      simp only [mulVec_single_one, col_apply] at this
      exact this
    have := HasDerivAt.fun_sum (u := Finset.univ) fun j _ => (he j).mul (h t j)
    have e : (-A * NormedSpace.exp ((t : ℂ) • (-A))) = -(NormedSpace.exp ((t : ℂ) • (-A)) * A) := by
      have hcomm : Commute A (NormedSpace.exp ((t : ℂ) • (-A))) :=
        (((Commute.refl A).neg_right).smul_right _).exp_right
      rw [Matrix.neg_mul, hcomm.eq]
    have e2 : ∑ j, ((-A * NormedSpace.exp ((t : ℂ) • (-A))) i j * f t j +
        NormedSpace.exp ((t : ℂ) • (-A)) i j * (A *ᵥ f t) j) = 0 := by
      rw [Finset.sum_add_distrib, e]
      have a1 : ∑ j, (-(NormedSpace.exp ((t : ℂ) • (-A)) * A)) i j * f t j =
          -((NormedSpace.exp ((t : ℂ) • (-A)) * A) *ᵥ f t) i := by
        simp [mulVec, dotProduct]
      have a2 : ∑ j, NormedSpace.exp ((t : ℂ) • (-A)) i j * (A *ᵥ f t) j =
          ((NormedSpace.exp ((t : ℂ) • (-A)) * A) *ᵥ f t) i := by
        rw [← mulVec_mulVec]; rfl
      rw [a1, a2]; ring
    rw [e2] at this
    exact this
  have hconst : NormedSpace.exp ((z : ℂ) • (-A)) *ᵥ f z = f 0 := by
    funext i
    have := is_const_of_deriv_eq_zero (fun t => (hc i t).differentiableAt) (fun t => (hc i t).deriv) z 0
    rw [this]
    simp
  rw [← hconst, mulVec_mulVec, smul_neg, exp_smul_inverse, one_mulVec]

/-- Two planes are joined by a solution when one is the exponential of the other. -/
theorem flow_joins {A : Matrix n n ℂ} {a b : n → ℂ} {d : ℝ} :
    (∃ f : ℝ → n → ℂ, (∀ z i, HasDerivAt (fun t => f t i) ((A *ᵥ f z) i) z) ∧ f 0 = a ∧ f d = b) ↔
      a = NormedSpace.exp (-((d : ℂ) • A)) *ᵥ b := by
  constructor
  · rintro ⟨f, h, rfl, rfl⟩
    rw [flow_unique h d, mulVec_mulVec, ← smul_neg]
    have := exp_smul_inverse (-A) (d : ℂ)
    rw [smul_neg, neg_neg] at this
    rw [smul_neg, this, one_mulVec]
  · intro h
    refine ⟨fun z => NormedSpace.exp ((z : ℂ) • A) *ᵥ a, fun z i => hasDerivAt_exp_mulVec A a z i, by simp, ?_⟩
    beta_reduce
    rw [h, mulVec_mulVec, exp_smul_inverse, one_mulVec]

theorem exp_neg_add (A : Matrix n n ℂ) (x y : ℂ) : NormedSpace.exp (-((x + y) • A)) =
    NormedSpace.exp (-(x • A)) * NormedSpace.exp (-(y • A)) := by
  rw [← Matrix.exp_add_of_commute]
  · congr 1; rw [add_smul]; abel
  · exact (((Commute.refl A).smul_right _).smul_left _).neg_left.neg_right

end Flow

/-! ### Repeated doubling -/

section Doubling
variable {n : Type} [Fintype n] [DecidableEq n]

theorem doubling_ok {U V A : Matrix (n ⊕ n) (n ⊕ n) ℂ} (hVU : V * U = 1) : ∀ {k : ℕ} {d : ℂ} {S S' : Matrix (n ⊕ n) (n ⊕ n) ℂ},
    matrixS (U * NormedSpace.exp (-(d • A)) * V) = .ok S → doubling k S = .ok S' →
    matrixS (U * NormedSpace.exp (-((2 ^ k * d) • A)) * V) = .ok S'
  | 0, d, S, S', h, h' => by
    cases h'
    simpa using h
  | k + 1, d, S, S', h, h' => by
    rw [doubling, bind_eq_ok] at h'
    obtain ⟨S2, h2, h'⟩ := h'
    rw [multS_matrixS h h] at h2
    have e : U * NormedSpace.exp (-(d • A)) * V * (U * NormedSpace.exp (-(d • A)) * V) =
        U * NormedSpace.exp (-((2 * d) • A)) * V := by
      rw [two_mul, exp_neg_add]
      calc _ = U * NormedSpace.exp (-(d • A)) * (V * U) * NormedSpace.exp (-(d • A)) * V := by
            simp only [Matrix.mul_assoc]
        _ = _ := by rw [hVU]; simp only [Matrix.mul_assoc, Matrix.mul_one]
    rw [e] at h2
    have := doubling_ok hVU h2 h'
    rwa [show (2 : ℂ) ^ (k + 1) * d = 2 ^ k * (2 * d) by ring]

end Doubling

/-! ### The transfer matrix of a slice -/

theorem foldl_grid {q : ℕ × ℕ} (F : ((Fin q.1 → Fin q.2 → ℂ) × ℂ) → Fin q.1 → Fin q.2 → ℂ)
    (data : List ((Fin q.1 → Fin q.2 → ℂ) × ℂ)) (start : Fin q.1 → Fin q.2 → ℂ) (i : Fin q.1) (j : Fin q.2) :
    data.foldl (fun acc d i j => acc i j + F d i j) start i j = start i j + (data.map fun d => F d i j).sum := by
  induction data generalizing start with
  | nil => simp
  | cons d ds ih => rw [List.foldl_cons, ih]; simp [add_assoc]

theorem epsilonG_ok {q : ℕ × ℕ} {data : List ((Fin q.1 → Fin q.2 → ℂ) × ℂ)} {host : ℂ} {inverse : Bool}
    {t : Fin q.1 → Fin q.2 → ℂ} (h : epsilonG q data host inverse = .ok t) (i : Fin q.1) (j : Fin q.2) :
    t i j = (if (i : ℕ) = q.1 / 2 ∧ (j : ℕ) = q.2 / 2 then (if inverse then 1 / host else host) else 0) +
      (data.map fun d => ((if inverse then 1 / d.2 else d.2) - (if inverse then 1 / host else host)) * d.1 i j).sum := by
  simp only [epsilonG, bind_eq_ok, pyCheck_eq_ok] at h
  obtain ⟨_, -, _, -, h⟩ := h
  cases h
  exact foldl_grid (fun d i j => ((if inverse then 1 / d.2 else d.2) - (if inverse then 1 / host else host)) * d.1 i j)
    data _ i j

theorem epsilonG_nonzero {q : ℕ × ℕ} {data : List ((Fin q.1 → Fin q.2 → ℂ) × ℂ)} {host : ℂ}
    {t : Fin q.1 → Fin q.2 → ℂ} (h : epsilonG q data host true = .ok t) : host ≠ 0 ∧ ∀ d ∈ data, d.2 ≠ 0 := by
  simp only [epsilonG, bind_eq_ok, pyCheck_eq_ok] at h
  obtain ⟨_, h, -⟩ := h
  exact h trivial

namespace TLattice
variable {pw : ℕ × ℕ} {a1 a2 : R2} {ei ee : PyNum} {l : TLattice} {jv1 : ℝ → ℝ} {wl : ℝ} {kp : ℂ × ℂ}

theorem wave_sub (h : TLattice.make pw a1 a2 ei ee = .ok l) (hs : l.shape = pw) {i j : Fin (l.shape.1 * l.shape.2)}
    {p1 p2 : ℕ} (h1 : (p1 : ℤ) = (l.ord i).1 - (l.ord j).1 + 2 * (pw.1 / 2 : ℕ))
    (h2 : (p2 : ℤ) = (l.ord i).2 - (l.ord j).2 + 2 * (pw.2 / 2 : ℕ)) :
    l.Gx p1 p2 = flatT l.shape l.gx i - flatT l.shape l.gx j ∧
    l.Gy p1 p2 = flatT l.shape l.gy i - flatT l.shape l.gy j := by
  have r1 : (p1 : ℝ) = (l.ord i).1 - (l.ord j).1 + 2 * (pw.1 / 2 : ℕ) := by
    generalize pw.1 / 2 = m at h1 ⊢
    exact_mod_cast h1
  have r2 : (p2 : ℝ) = (l.ord i).2 - (l.ord j).2 + 2 * (pw.2 / 2 : ℕ) := by
    generalize pw.2 / 2 = m at h2 ⊢
    exact_mod_cast h2
  have g : ∀ k : Fin (l.shape.1 * l.shape.2),
      flatT l.shape l.gx k = l.b.1.1 * (l.ord k).1 + l.b.2.1 * (l.ord k).2 ∧
      flatT l.shape l.gy k = l.b.1.2 * (l.ord k).1 + l.b.2.2 * (l.ord k).2 := by
    intro k
    obtain ⟨ha, hb⟩ := make_gx h ((k : ℕ) % l.shape.1) ((k : ℕ) / l.shape.1)
    simp only [flatT, ha, hb, ord, Int.cast_sub, Int.cast_natCast]
    have e1 : l.shape.1 / 2 = pw.1 / 2 := by rw [hs]
    have e2 : l.shape.2 / 2 = pw.2 / 2 := by rw [hs]
    rw [e1, e2]
    exact ⟨rfl, rfl⟩
  rw [(make_Gx h p1 p2).1, (make_Gx h p1 p2).2, (g i).1, (g j).1, (g i).2, (g j).2, r1, r2]
  push_cast
  constructor <;> ring

/-- `matrix_a` reads the coefficients at differences of orders. -/
theorem readTables_ok (h : TLattice.make pw a1 a2 ei ee = .ok l) (hs : l.shape = pw) :
    ∃ P : Fin (l.shape.1 * l.shape.2) → Fin (l.shape.1 * l.shape.2) → Fin l.q.1 × Fin l.q.2,
      (∀ epsG epsinvG : Fin l.q.1 → Fin l.q.2 → ℂ, readTables l.shape l.q l.indices epsG epsinvG =
        .ok fun i j => (epsG (P i j).1 (P i j).2, epsinvG (P i j).1 (P i j).2)) ∧
      ∀ i j, l.Gx (P i j).1 (P i j).2 = flatT l.shape l.gx i - flatT l.shape l.gx j ∧
        l.Gy (P i j).1 (P i j).2 = flatT l.shape l.gy i - flatT l.shape l.gy j ∧
        (((P i j).1 : ℕ) = l.q.1 / 2 ∧ ((P i j).2 : ℕ) = l.q.2 / 2 ↔ i = j) := by
  have hpos := fun i j => read_pos h hs i j
  choose p1 p2 h1 h2 e1 e2 using hpos
  have hsp : l.shape = l.pw := by rw [hs, (make_fields h).1]
  refine ⟨fun i j => (p1 i j, p2 i j), fun epsG epsinvG => ?_, fun i j => ?_⟩
  · refine pyFinM_eq_ok.2 fun i => pyFinM_eq_ok.2 fun j => ?_
    rw [indices_get hsp j, ok_bind, indices_get hsp i, ok_bind, h1, ok_bind, h2, ok_bind]
    rfl
  · obtain ⟨w1, w2⟩ := wave_sub h hs (e1 i j) (e2 i j)
    refine ⟨w1, w2, ?_⟩
    have q1 : l.q.1 / 2 = 2 * (pw.1 / 2) := by rw [(make_fields h).2.1]; simp only; omega
    have q2 : l.q.2 / 2 = 2 * (pw.2 / 2) := by rw [(make_fields h).2.1]; simp only; omega
    have f1 := e1 i j
    have f2 := e2 i j
    rw [q1, q2]
    simp only
    constructor
    · rintro ⟨g1, g2⟩
      have o1 : (l.ord i).1 = (l.ord j).1 := by omega
      have o2 : (l.ord i).2 = (l.ord j).2 := by omega
      simp only [ord] at o1 o2
      have m1 : (i : ℕ) % l.shape.1 = (j : ℕ) % l.shape.1 := by omega
      have m2 : (i : ℕ) / l.shape.1 = (j : ℕ) / l.shape.1 := by
        generalize (i : ℕ) / l.shape.1 = x at *
        generalize (j : ℕ) / l.shape.1 = y at *
        omega
      apply Fin.ext
      rw [← Nat.div_add_mod (i : ℕ) l.shape.1, ← Nat.div_add_mod (j : ℕ) l.shape.1, m1, m2]
    · rintro rfl
      omega

theorem matrixA_ok (hw : wl ≠ 0)
    {epsG epsinvG : Fin l.q.1 → Fin l.q.2 → ℂ} {tab : Fin (l.shape.1 * l.shape.2) → Fin (l.shape.1 * l.shape.2) → ℂ × ℂ}
    (ht : readTables l.shape l.q l.indices epsG epsinvG = .ok tab) :
    matrixA l.shape l.q l.indices l.gx l.gy epsG epsinvG wl kp =
      .ok (tsystem (l.wave kp) (of fun i j => (tab i j).1) (of fun i j => (tab i j).2) ((2 * Real.pi / wl : ℝ) : ℂ)) := by
  rw [matrixA, pyCheck_ok hw, ok_bind]
  simp only [ht, ok_bind]
  rfl

theorem transform_coef {s : TShape} {t : Fin l.q.1 → Fin l.q.2 → ℂ} (h : l.transform jv1 s = .ok t) (i : Fin l.q.1)
    (j : Fin l.q.2) : t i j = s.coef jv1 l.area (l.Gx i j, l.Gy i j) := by
  cases s with
  | uniform => cases h; rfl
  | shape s =>
    have := pyFinM_eq_ok.1 (pyFinM_eq_ok.1 h i) j
    simp only [TShape.coef, this]

/-- What a slice is made of. -/
theorem slice_ok (h : TLattice.make pw a1 a2 ei ee = .ok l) (hs : l.shape = pw) {islands : List (TShape × ℂ)} {host : ℂ}
    {depth : ℝ} {k : ℕ} {T : Matrix (TIdx l.shape) (TIdx l.shape) ℂ}
    (hT : sliceTransfer jv1 l islands host wl kp depth k = .ok T) :
    ∃ U V, l.U wl kp = .ok U ∧ l.V l.epsI wl kp = .ok V ∧ wl ≠ 0 ∧ host ≠ 0 ∧ (∀ d ∈ islands, d.2 ≠ 0) ∧
      T = U * NormedSpace.exp (-(((depth / 2 ^ k : ℝ) : ℂ) • tsystem (l.wave kp) (l.coupling jv1 islands host id)
        (l.coupling jv1 islands host (1 / ·)) ((2 * Real.pi / wl : ℝ) : ℂ))) * V := by
  simp only [sliceTransfer, bind_eq_ok] at hT
  obtain ⟨data, hdata, eg, heg, eig, heig, U, hU, V, hV, A, hA, hT⟩ := hT
  obtain ⟨P, hP, hG⟩ := readTables_ok h hs
  have hw : wl ≠ 0 := (U_ok hU).1
  have hA' : matrixA l.shape l.q l.indices l.gx l.gy eg eig wl kp = .ok A := hA
  rw [matrixA_ok hw (hP eg eig)] at hA'
  have hsum : ∀ (i : Fin l.q.1) (j : Fin l.q.2) (f : ℂ → ℂ),
      (data.map fun d => (f d.2 - f host) * d.1 i j).sum =
      (islands.map fun d => (f d.2 - f host) * d.1.coef jv1 l.area (l.Gx i j, l.Gy i j)).sum := by
    intro i j f
    clear heg heig
    induction islands generalizing data with
    | nil => simp only [List.mapM_nil] at hdata; cases hdata; rfl
    | cons s ss ih =>
      simp only [List.mapM_cons, bind_eq_ok] at hdata
      obtain ⟨d, ⟨t, ht, hd⟩, ds, hds, hdata⟩ := hdata
      cases hdata
      cases hd
      simp only [List.map_cons, List.sum_cons, transform_coef ht, ih ds hds]
  have hnz := epsilonG_nonzero heig
  refine ⟨U, V, hU, hV, hw, hnz.1, ?_, ?_⟩
  · clear heg heig hsum
    induction islands generalizing data with
    | nil => simp
    | cons s ss ih =>
      simp only [List.mapM_cons, bind_eq_ok] at hdata
      obtain ⟨d, ⟨t, ht, hd⟩, ds, hds, hdata⟩ := hdata
      cases hdata
      cases hd
      intro x hx
      rcases List.mem_cons.1 hx with rfl | hx
      · exact hnz.2 _ (List.mem_cons_self ..)
      · exact ih ds hds ⟨hnz.1, fun d hd => hnz.2 d (List.mem_cons_of_mem _ hd)⟩ x hx
  · cases hT
    cases hA'
    congr 6
    · ext i j
      obtain ⟨g1, g2, g3⟩ := hG i j
      have := epsilonG_ok heg (P i j).1 (P i j).2
      simp only [Bool.false_eq_true, if_false] at this
      simp only [of_apply, coupling, this, g3]
      have hs1 := hsum (P i j).1 (P i j).2 id
      simp only [id] at hs1 ⊢
      rw [hs1, g1, g2]
    · ext i j
      obtain ⟨g1, g2, g3⟩ := hG i j
      have := epsilonG_ok heig (P i j).1 (P i j).2
      simp only [if_true] at this
      simp only [of_apply, coupling, this, g3]
      rw [hsum _ _ (1 / ·), g1, g2]

end TLattice

end Khepri
