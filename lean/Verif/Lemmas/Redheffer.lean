import Verif.Spec.Scattering
import Mathlib.LinearAlgebra.Matrix.SchurComplement
import Mathlib.LinearAlgebra.Matrix.ToLinearEquiv
import Mathlib.Tactic.Abel
import Mathlib.Tactic.NoncommRing

set_option linter.unusedSectionVars false

namespace Khepri

open Matrix

section NpLemmas
variable {n m : Type} [Fintype n] [DecidableEq n]

theorem npSolve_eq_ok {A : Matrix n n ℂ} {B X : Matrix n m ℂ} :
    npSolve A B = .ok X ↔ A.det ≠ 0 ∧ X = A⁻¹ * B := by
  unfold npSolve
  split_ifs with h
  · simp [h]
  · simp [h, eq_comm]

theorem npSolve_ok {A : Matrix n n ℂ} (h : A.det ≠ 0) (B : Matrix n m ℂ) :
    npSolve A B = .ok (A⁻¹ * B) := npSolve_eq_ok.2 ⟨h, rfl⟩

theorem npSolve_err {A : Matrix n n ℂ} (h : A.det = 0) (B : Matrix n m ℂ) :
    npSolve A B = .error .linAlg := by simp [npSolve, h]

theorem npSolveVec_eq_ok {A : Matrix n n ℂ} {b x : n → ℂ} :
    npSolveVec A b = .ok x ↔ A.det ≠ 0 ∧ x = A⁻¹ *ᵥ b := by
  unfold npSolveVec
  split_ifs with h
  · simp [h]
  · simp [h, eq_comm]

theorem npInv_eq_ok {A X : Matrix n n ℂ} : npInv A = .ok X ↔ A.det ≠ 0 ∧ X = A⁻¹ := by
  unfold npInv
  split_ifs with h
  · simp [h]
  · simp [h, eq_comm]

theorem npInv_ok {A : Matrix n n ℂ} (h : A.det ≠ 0) : npInv A = .ok A⁻¹ := npInv_eq_ok.2 ⟨h, rfl⟩

theorem npDivCols_eq_ok {Q X : Matrix m n ℂ} {lam : n → ℂ} :
    npDivCols Q lam = .ok X ↔ (∀ j, lam j ≠ 0) ∧ X = Matrix.of fun i j => Q i j / lam j := by
  unfold npDivCols
  split_ifs with h
  · simp only [false_iff, not_and]
    intro h'
    obtain ⟨j, hj⟩ := h
    exact absurd hj (h' j)
  · push Not at h
    simp [h, eq_comm]

theorem inv_mul_of_det {A : Matrix n n ℂ} (h : A.det ≠ 0) : A⁻¹ * A = 1 :=
  Matrix.nonsing_inv_mul A (isUnit_iff_ne_zero.2 h)

theorem mul_inv_of_det {A : Matrix n n ℂ} (h : A.det ≠ 0) : A * A⁻¹ = 1 :=
  Matrix.mul_nonsing_inv A (isUnit_iff_ne_zero.2 h)

theorem mulVec_eq_iff {A : Matrix n n ℂ} (h : A.det ≠ 0) {x y : n → ℂ} :
    A *ᵥ x = y ↔ x = A⁻¹ *ᵥ y := by
  constructor
  · rintro rfl; rw [mulVec_mulVec, inv_mul_of_det h, one_mulVec]
  · rintro rfl; rw [mulVec_mulVec, mul_inv_of_det h, one_mulVec]

theorem det_one_sub_comm (X Y : Matrix n n ℂ) : (1 - X * Y).det = (1 - Y * X).det :=
  Matrix.det_one_sub_mul_comm X Y

end NpLemmas

variable {n : Type} [Fintype n] [DecidableEq n]

/-- The value of `redheffer` when it is defined. -/
noncomputable def redhefferVal (A B : SMat n) : SMat n :=
  let D := 1 - B.s11 * A.s22
  let F := 1 - A.s22 * B.s11
  ⟨A.s11 + A.s12 * (D⁻¹ * B.s11) * A.s21, A.s12 * (D⁻¹ * B.s12),
   B.s21 * (F⁻¹ * A.s21), B.s22 + B.s21 * (F⁻¹ * A.s22) * B.s12⟩

theorem redheffer_ok_of_det {A B : SMat n} (h : (1 - B.s11 * A.s22).det ≠ 0) :
    redheffer A B = .ok (redhefferVal A B) := by
  have h' : (1 - A.s22 * B.s11).det ≠ 0 := by rwa [det_one_sub_comm]
  simp only [redheffer, npSolve_ok h, npSolve_ok h']
  rfl

theorem redheffer_err_of_det {A B : SMat n} (h : (1 - B.s11 * A.s22).det = 0) :
    redheffer A B = .error .linAlg := by
  simp only [redheffer, npSolve_err h]
  rfl

theorem redheffer_eq_ok {A B S : SMat n} :
    redheffer A B = .ok S ↔ (1 - B.s11 * A.s22).det ≠ 0 ∧ S = redhefferVal A B := by
  by_cases h : (1 - B.s11 * A.s22).det = 0
  · simp [redheffer_err_of_det h, h]
  · simp [redheffer_ok_of_det h, h, eq_comm]

/-- Matrices are determined by the relation they define. -/
theorem SMat.ext_scatters {S S' : SMat n} (h : ∀ p q, Scatters S p q → Scatters S' p q) : S = S' := by
  have key : ∀ a d : n → ℂ, S.s11 *ᵥ a + S.s12 *ᵥ d = S'.s11 *ᵥ a + S'.s12 *ᵥ d ∧
      S.s21 *ᵥ a + S.s22 *ᵥ d = S'.s21 *ᵥ a + S'.s22 *ᵥ d := fun a d =>
    h ⟨a, S.s11 *ᵥ a + S.s12 *ᵥ d⟩ ⟨S.s21 *ᵥ a + S.s22 *ᵥ d, d⟩ ⟨rfl, rfl⟩
  apply SMat.ext
  · apply Matrix.ext_of_mulVec_single; intro i; simpa using (key (Pi.single i 1) 0).1
  · apply Matrix.ext_of_mulVec_single; intro i; simpa using (key 0 (Pi.single i 1)).1
  · apply Matrix.ext_of_mulVec_single; intro i; simpa using (key (Pi.single i 1) 0).2
  · apply Matrix.ext_of_mulVec_single; intro i; simpa using (key 0 (Pi.single i 1)).2

/-- Amplitudes between `A` and `B` in terms of what comes in from outside. -/
theorem junction_iff {A B : SMat n} (h : (1 - B.s11 * A.s22).det ≠ 0) (a d : n → ℂ) (q : Port n) :
    (q.fwd = A.s21 *ᵥ a + A.s22 *ᵥ q.bwd ∧ q.bwd = B.s11 *ᵥ q.fwd + B.s12 *ᵥ d) ↔
    (q.fwd = (1 - A.s22 * B.s11)⁻¹ *ᵥ (A.s21 *ᵥ a + A.s22 *ᵥ (B.s12 *ᵥ d)) ∧
     q.bwd = (1 - B.s11 * A.s22)⁻¹ *ᵥ (B.s11 *ᵥ (A.s21 *ᵥ a) + B.s12 *ᵥ d)) := by
  have h' : (1 - A.s22 * B.s11).det ≠ 0 := by rwa [det_one_sub_comm]
  rw [← mulVec_eq_iff h, ← mulVec_eq_iff h']
  constructor
  · rintro ⟨h1, h2⟩
    constructor
    · rw [sub_mulVec, one_mulVec, sub_eq_iff_eq_add]
      calc q.fwd = A.s21 *ᵥ a + A.s22 *ᵥ q.bwd := h1
        _ = A.s21 *ᵥ a + A.s22 *ᵥ (B.s11 *ᵥ q.fwd + B.s12 *ᵥ d) := by rw [← h2]
        _ = _ := by simp only [mulVec_add, mulVec_mulVec]; abel
    · rw [sub_mulVec, one_mulVec, sub_eq_iff_eq_add]
      calc q.bwd = B.s11 *ᵥ q.fwd + B.s12 *ᵥ d := h2
        _ = B.s11 *ᵥ (A.s21 *ᵥ a + A.s22 *ᵥ q.bwd) + B.s12 *ᵥ d := by rw [← h1]
        _ = _ := by simp only [mulVec_add, mulVec_mulVec]; abel
  · rintro ⟨h1, h2⟩
    have e2 : q.bwd = B.s11 *ᵥ (A.s21 *ᵥ a) + B.s12 *ᵥ d + (B.s11 * A.s22) *ᵥ q.bwd := by
      rw [← h2, sub_mulVec, one_mulVec]; abel
    have e1 : q.fwd = A.s21 *ᵥ a + A.s22 *ᵥ q.bwd := by
      have : (1 - A.s22 * B.s11) *ᵥ (A.s21 *ᵥ a + A.s22 *ᵥ q.bwd) =
          A.s21 *ᵥ a + A.s22 *ᵥ (B.s12 *ᵥ d) := by
        have := congrArg (A.s22 *ᵥ ·) e2
        simp only [mulVec_add, mulVec_mulVec] at this
        rw [sub_mulVec, one_mulVec]
        simp only [mulVec_add, mulVec_mulVec, Matrix.mul_assoc]
        rw [this]; abel
      rw [← this] at h1
      rw [mulVec_eq_iff h', mulVec_mulVec, inv_mul_of_det h', one_mulVec] at h1
      exact h1
    refine ⟨e1, ?_⟩
    rw [e1, mulVec_add, mulVec_mulVec _ B.s11 A.s22]
    conv_lhs => rw [e2]
    abel

theorem scatters_redhefferVal {A B : SMat n} (h : (1 - B.s11 * A.s22).det ≠ 0) (p r : Port n) :
    Scatters (redhefferVal A B) p r ↔ ∃ q, Scatters A p q ∧ Scatters B q r := by
  constructor
  · rintro ⟨h1, h2⟩
    let q : Port n :=
      ⟨(1 - A.s22 * B.s11)⁻¹ *ᵥ (A.s21 *ᵥ p.fwd + A.s22 *ᵥ (B.s12 *ᵥ r.bwd)),
       (1 - B.s11 * A.s22)⁻¹ *ᵥ (B.s11 *ᵥ (A.s21 *ᵥ p.fwd) + B.s12 *ᵥ r.bwd)⟩
    have hq := (junction_iff h p.fwd r.bwd q).2 ⟨rfl, rfl⟩
    refine ⟨q, ⟨?_, hq.1⟩, ⟨hq.2, ?_⟩⟩
    · rw [h1]; simp only [q, redhefferVal, mulVec_add, mulVec_mulVec, add_mulVec, Matrix.mul_assoc]
      abel
    · rw [h2]; simp only [q, redhefferVal, mulVec_add, mulVec_mulVec, add_mulVec, Matrix.mul_assoc]
      abel
  · rintro ⟨q, ⟨a1, a2⟩, ⟨b1, b2⟩⟩
    obtain ⟨q1, q2⟩ := (junction_iff h p.fwd r.bwd q).1 ⟨a2, b1⟩
    constructor
    · rw [a1, q2]; simp only [redhefferVal, mulVec_add, mulVec_mulVec, add_mulVec, Matrix.mul_assoc]
      abel
    · rw [b2, q1]; simp only [redhefferVal, mulVec_add, mulVec_mulVec, add_mulVec, Matrix.mul_assoc]
      abel

theorem push_through {X Y : Matrix n n ℂ} (h : (1 - X * Y).det ≠ 0) :
    X * (1 - Y * X)⁻¹ = (1 - X * Y)⁻¹ * X := by
  have h' : (1 - Y * X).det ≠ 0 := by rwa [det_one_sub_comm]
  have e : (1 - X * Y) * X = X * (1 - Y * X) := by noncomm_ring
  calc X * (1 - Y * X)⁻¹ = (1 - X * Y)⁻¹ * ((1 - X * Y) * X) * (1 - Y * X)⁻¹ := by
        rw [← Matrix.mul_assoc, inv_mul_of_det h, Matrix.one_mul]
    _ = _ := by rw [e, Matrix.mul_assoc, Matrix.mul_assoc, mul_inv_of_det h', Matrix.mul_one]

theorem det_blocks₁₁ {A B C D : Matrix n n ℂ} (h : A.det ≠ 0) :
    (fromBlocks A B C D).det = A.det * (D - C * A⁻¹ * B).det := by
  let _ := Matrix.invertibleOfIsUnitDet A (isUnit_iff_ne_zero.2 h)
  rw [Matrix.det_fromBlocks₁₁, invOf_eq_nonsing_inv]

theorem det_blocks₂₂ {A B C D : Matrix n n ℂ} (h : D.det ≠ 0) :
    (fromBlocks A B C D).det = D.det * (A - B * D⁻¹ * C).det := by
  let _ := Matrix.invertibleOfIsUnitDet D (isUnit_iff_ne_zero.2 h)
  rw [Matrix.det_fromBlocks₂₂, invOf_eq_nonsing_inv]

/-- The determinant identity behind associativity of definedness. -/
theorem det_assoc {A B C : SMat n} (hab : (1 - B.s11 * A.s22).det ≠ 0)
    (hbc : (1 - C.s11 * B.s22).det ≠ 0) :
    (1 - B.s11 * A.s22).det * (1 - C.s11 * (redhefferVal A B).s22).det =
    (1 - C.s11 * B.s22).det * (1 - (redhefferVal B C).s11 * A.s22).det := by
  have hab' : (1 - A.s22 * B.s11).det ≠ 0 := by rwa [det_one_sub_comm]
  have hbc' : (1 - B.s22 * C.s11).det ≠ 0 := by rwa [det_one_sub_comm]
  have e1 := det_blocks₁₁ (B := -(B.s12 * C.s11)) (C := -(B.s21 * A.s22))
    (D := 1 - B.s22 * C.s11) hab
  have e2 := det_blocks₂₂ (A := 1 - B.s11 * A.s22) (B := -(B.s12 * C.s11))
    (C := -(B.s21 * A.s22)) hbc'
  have f1 : 1 - B.s22 * C.s11 - -(B.s21 * A.s22) * (1 - B.s11 * A.s22)⁻¹ * -(B.s12 * C.s11) =
      1 - (redhefferVal A B).s22 * C.s11 := by
    have := push_through hab'
    simp only [redhefferVal, ← this]
    noncomm_ring
  have f2 : 1 - B.s11 * A.s22 - -(B.s12 * C.s11) * (1 - B.s22 * C.s11)⁻¹ * -(B.s21 * A.s22) =
      1 - (redhefferVal B C).s11 * A.s22 := by
    have := push_through hbc
    simp only [redhefferVal, ← this]
    noncomm_ring
  rw [f1] at e1
  rw [f2] at e2
  rw [det_one_sub_comm C.s11, det_one_sub_comm C.s11, ← e1, ← e2]

theorem redhefferVal_assoc {A B C : SMat n} (hab : (1 - B.s11 * A.s22).det ≠ 0)
    (hbc : (1 - C.s11 * B.s22).det ≠ 0)
    (h1 : (1 - C.s11 * (redhefferVal A B).s22).det ≠ 0)
    (h2 : (1 - (redhefferVal B C).s11 * A.s22).det ≠ 0) :
    redhefferVal (redhefferVal A B) C = redhefferVal A (redhefferVal B C) := by
  apply SMat.ext_scatters
  intro p q h
  rw [scatters_redhefferVal h1] at h
  obtain ⟨m, hm, hc⟩ := h
  rw [scatters_redhefferVal hab] at hm
  obtain ⟨l, ha, hb⟩ := hm
  rw [scatters_redhefferVal h2]
  exact ⟨l, ha, (scatters_redhefferVal hbc l q).2 ⟨m, hb, hc⟩⟩

end Khepri
