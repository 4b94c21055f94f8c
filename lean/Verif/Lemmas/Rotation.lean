import Verif.Model.Beams
import Verif.Lemmas.Py
import Mathlib.LinearAlgebra.Matrix.Determinant.Misc
import Mathlib.LinearAlgebra.CrossProduct
import Mathlib.Tactic.NoncommRing
import Mathlib.Tactic.LinearCombination

/-! Rotations of beams. -/

set_option linter.unusedSectionVars false

namespace Khepri

open Matrix

/-- Rotation by an angle of cosine `c` and sine `s` about `(x, y, z)`. -/
def axisRot (x y z c s : ℝ) : Matrix (Fin 3) (Fin 3) ℝ :=
  !![c + x ^ 2 * (1 - c), x * y * (1 - c) - z * s, x * z * (1 - c) + y * s;
    y * x * (1 - c) + z * s, c + y ^ 2 * (1 - c), y * z * (1 - c) - x * s;
    z * x * (1 - c) - y * s, z * y * (1 - c) + x * s, c + z ^ 2 * (1 - c)]

theorem axisRot_det {x y z c s : ℝ} (h : x ^ 2 + y ^ 2 + z ^ 2 = 1) (h' : s ^ 2 + c ^ 2 = 1) :
    (axisRot x y z c s).det = 1 := by
  have : (axisRot x y z c s).det = (c ^ 2 + s ^ 2 * (x ^ 2 + y ^ 2 + z ^ 2)) * (c + (1 - c) * (x ^ 2 + y ^ 2 + z ^ 2)) := by
    rw [det_fin_three]
    simp [axisRot]
    ring
  rw [this, h]
  linear_combination h'

theorem axisRot_orth {x y z c s : ℝ} (h : x ^ 2 + y ^ 2 + z ^ 2 = 1) (h' : s ^ 2 + c ^ 2 = 1) :
    (axisRot x y z c s)ᵀ * axisRot x y z c s = 1 := by
  let P : Matrix (Fin 3) (Fin 3) ℝ := !![x * x, x * y, x * z; y * x, y * y, y * z; z * x, z * y, z * z]
  let K : Matrix (Fin 3) (Fin 3) ℝ := !![0, -z, y; z, 0, -x; -y, x, 0]
  have e : axisRot x y z c s = c • 1 + s • K + (1 - c) • P := by
    ext i j
    fin_cases i <;> fin_cases j <;> simp [axisRot, P, K] <;> ring
  have et : (axisRot x y z c s)ᵀ = c • 1 - s • K + (1 - c) • P := by
    ext i j
    fin_cases i <;> fin_cases j <;> simp [axisRot, P, K] <;> ring
  have hPP : P * P = P := by
    ext i j
    fin_cases i <;> fin_cases j <;> simp [P, Matrix.mul_apply, Fin.sum_univ_three]
    · linear_combination x * x * h
    · linear_combination x * y * h
    · linear_combination x * z * h
    · linear_combination x * y * h
    · linear_combination y * y * h
    · linear_combination y * z * h
    · linear_combination x * z * h
    · linear_combination y * z * h
    · linear_combination z * z * h
  have hKK : K * K = P - 1 := by
    ext i j
    fin_cases i <;> fin_cases j <;> simp [P, K, Matrix.mul_apply, Fin.sum_univ_three]
    all_goals first | ring1 | linear_combination -h
  have hKP : K * P = 0 := by
    ext i j
    fin_cases i <;> fin_cases j <;> simp [P, K, Matrix.mul_apply, Fin.sum_univ_three] <;> ring
  have hPK : P * K = 0 := by
    ext i j
    fin_cases i <;> fin_cases j <;> simp [P, K, Matrix.mul_apply, Fin.sum_univ_three] <;> ring
  rw [et, e]
  simp only [Matrix.add_mul, Matrix.sub_mul, Matrix.mul_add, Matrix.smul_mul, Matrix.mul_smul, Matrix.one_mul,
    Matrix.mul_one, hPP, hKK, hKP, hPK, smul_zero]
  ext i j
  simp only [Matrix.add_apply, Matrix.sub_apply, Matrix.smul_apply, smul_eq_mul, Matrix.zero_apply]
  linear_combination ((1 : Matrix (Fin 3) (Fin 3) ℝ) i j - P i j) * h'

theorem rotationZ_eq (phi : ℝ) : rotationZ phi = axisRot 0 0 1 (Real.cos phi) (Real.sin phi) := by
  ext i j
  fin_cases i <;> fin_cases j <;> simp [rotationZ, axisRot]

theorem rotationY_eq (theta : ℝ) : rotationY theta = axisRot 0 1 0 (Real.cos theta) (Real.sin theta) := by
  ext i j
  fin_cases i <;> fin_cases j <;> simp [rotationY, axisRot]

theorem direction_unit (theta phi : ℝ) :
    (Real.cos phi * Real.sin theta) ^ 2 + (Real.sin phi * Real.sin theta) ^ 2 + Real.cos theta ^ 2 = 1 := by
  have h1 := Real.sin_sq_add_cos_sq theta
  have h2 := Real.sin_sq_add_cos_sq phi
  linear_combination Real.sin theta ^ 2 * h2 + h1

theorem rotationP_eq (theta phi psi : ℝ) : rotationP theta phi psi = axisRot (Real.cos phi * Real.sin theta)
    (Real.sin phi * Real.sin theta) (Real.cos theta) (Real.cos psi) (Real.sin psi) := rfl

theorem rotationMatrix_orth (theta phi psi : ℝ) : (rotationMatrix theta phi psi)ᵀ * rotationMatrix theta phi psi = 1 := by
  have h1 := axisRot_orth (direction_unit theta phi) (Real.sin_sq_add_cos_sq psi)
  have h2 := axisRot_orth (x := 0) (y := 0) (z := 1) (by norm_num) (Real.sin_sq_add_cos_sq phi)
  have h3 := axisRot_orth (x := 0) (y := 1) (z := 0) (by norm_num) (Real.sin_sq_add_cos_sq theta)
  rw [← rotationP_eq] at h1
  rw [← rotationZ_eq] at h2
  rw [← rotationY_eq] at h3
  rw [rotationMatrix, transpose_mul, transpose_mul]
  calc (rotationY theta)ᵀ * ((rotationZ phi)ᵀ * (rotationP theta phi psi)ᵀ) *
        (rotationP theta phi psi * rotationZ phi * rotationY theta)
      = (rotationY theta)ᵀ * ((rotationZ phi)ᵀ * ((rotationP theta phi psi)ᵀ * rotationP theta phi psi) * rotationZ phi) *
        rotationY theta := by simp only [Matrix.mul_assoc]
    _ = 1 := by rw [h1, Matrix.mul_one, h2, Matrix.mul_one, h3]

theorem rotationMatrix_det (theta phi psi : ℝ) : (rotationMatrix theta phi psi).det = 1 := by
  rw [rotationMatrix, det_mul, det_mul, rotationP_eq, rotationZ_eq, rotationY_eq,
    axisRot_det (direction_unit theta phi) (Real.sin_sq_add_cos_sq psi),
    axisRot_det (by norm_num) (Real.sin_sq_add_cos_sq phi), axisRot_det (by norm_num) (Real.sin_sq_add_cos_sq theta)]
  norm_num

theorem rotationMatrix_inv (theta phi psi : ℝ) : (rotationMatrix theta phi psi)⁻¹ = (rotationMatrix theta phi psi)ᵀ :=
  inv_eq_left_inv (rotationMatrix_orth theta phi psi)

theorem rotationMatrix_orth' (theta phi psi : ℝ) : rotationMatrix theta phi psi * (rotationMatrix theta phi psi)ᵀ = 1 :=
  mul_eq_one_comm.1 (rotationMatrix_orth theta phi psi)

theorem rotationMatrix_z (theta phi psi : ℝ) : rotationMatrix theta phi psi *ᵥ ![0, 0, 1] =
    ![Real.sin theta * Real.cos phi, Real.sin theta * Real.sin phi, Real.cos theta] := by
  rw [rotationMatrix, ← mulVec_mulVec, ← mulVec_mulVec]
  have h1 : rotationY theta *ᵥ ![0, 0, 1] = ![Real.sin theta, 0, Real.cos theta] := by
    ext i; fin_cases i <;> simp [rotationY, mulVec, dotProduct, Fin.sum_univ_three]
  have h2 : rotationZ phi *ᵥ ![Real.sin theta, 0, Real.cos theta] =
      ![Real.cos phi * Real.sin theta, Real.sin phi * Real.sin theta, Real.cos theta] := by
    ext i; fin_cases i <;> simp [rotationZ, mulVec, dotProduct, Fin.sum_univ_three]
  have hu := direction_unit theta phi
  rw [h1, h2]
  ext i
  fin_cases i <;> simp [rotationP, mulVec, dotProduct, Fin.sum_univ_three]
  · linear_combination (Real.cos phi * Real.sin theta) * (1 - Real.cos psi) * hu
  · linear_combination (Real.sin phi * Real.sin theta) * (1 - Real.cos psi) * hu
  · linear_combination Real.cos theta * (1 - Real.cos psi) * hu

theorem rotationMatrix_x (theta phi psi : ℝ) : rotationMatrix theta phi psi *ᵥ ![1, 0, 0] =
    Real.cos psi • ![Real.cos theta * Real.cos phi, Real.cos theta * Real.sin phi, -Real.sin theta] +
    Real.sin psi • ![-Real.sin phi, Real.cos phi, 0] := by
  rw [rotationMatrix, ← mulVec_mulVec, ← mulVec_mulVec]
  have h1 : rotationY theta *ᵥ ![1, 0, 0] = ![Real.cos theta, 0, -Real.sin theta] := by
    ext i; fin_cases i <;> simp [rotationY, mulVec, dotProduct, Fin.sum_univ_three]
  have h2 : rotationZ phi *ᵥ ![Real.cos theta, 0, -Real.sin theta] =
      ![Real.cos phi * Real.cos theta, Real.sin phi * Real.cos theta, -Real.sin theta] := by
    ext i; fin_cases i <;> simp [rotationZ, mulVec, dotProduct, Fin.sum_univ_three]
  have hp := Real.sin_sq_add_cos_sq phi
  have ht := Real.sin_sq_add_cos_sq theta
  rw [h1, h2]
  ext i
  fin_cases i <;> simp [rotationP, mulVec, dotProduct, Fin.sum_univ_three]
  · linear_combination (Real.cos phi * Real.cos theta * Real.sin theta ^ 2 * (1 - Real.cos psi)) * hp -
      Real.sin phi * Real.sin psi * ht
  · linear_combination (Real.sin phi * Real.cos theta * Real.sin theta ^ 2 * (1 - Real.cos psi)) * hp +
      Real.cos phi * Real.sin psi * ht
  · linear_combination (Real.cos theta ^ 2 * Real.sin theta * (1 - Real.cos psi)) * hp

theorem rotationMatrix_y (theta phi psi : ℝ) : rotationMatrix theta phi psi *ᵥ ![0, 1, 0] =
    Real.cos psi • ![-Real.sin phi, Real.cos phi, 0] -
    Real.sin psi • ![Real.cos theta * Real.cos phi, Real.cos theta * Real.sin phi, -Real.sin theta] := by
  rw [rotationMatrix, ← mulVec_mulVec, ← mulVec_mulVec]
  have h1 : rotationY theta *ᵥ ![0, 1, 0] = ![0, 1, 0] := by
    ext i; fin_cases i <;> simp [rotationY, mulVec, dotProduct, Fin.sum_univ_three]
  have h2 : rotationZ phi *ᵥ ![0, 1, 0] = ![-Real.sin phi, Real.cos phi, 0] := by
    ext i; fin_cases i <;> simp [rotationZ, mulVec, dotProduct, Fin.sum_univ_three]
  have hp := Real.sin_sq_add_cos_sq phi
  rw [h1, h2]
  ext i
  fin_cases i <;> simp [rotationP, mulVec, dotProduct, Fin.sum_univ_three]
  · ring
  · ring
  · linear_combination Real.sin theta * Real.sin psi * hp

/-- What `shifted_rotated_fields` computes. -/
theorem shiftedRotatedFields_ok (f : FieldFn) (o : Fin 3 → ℝ) (theta phi psi : ℝ) (r : Fin 3 → ℝ) :
    shiftedRotatedFields f o theta phi psi r =
      .ok ((rotationMatrix theta phi psi).map Complex.ofReal *ᵥ (f ((rotationMatrix theta phi psi)ᵀ *ᵥ (r - o))).1,
        (rotationMatrix theta phi psi).map Complex.ofReal *ᵥ (f ((rotationMatrix theta phi psi)ᵀ *ᵥ (r - o))).2) := by
  have h : (rotationMatrix theta phi psi).det ≠ 0 := by rw [rotationMatrix_det]; norm_num
  simp only [shiftedRotatedFields, npSolveR, if_neg h, ok_bind, rotationMatrix_inv, mulVec_sub]
  rfl

end Khepri
