import Verif.Lemmas.ExampleDevice
import Verif.Lemmas.Convolution
import Verif.Props.Convolution

/-! A constant pixmap solved as a pixmap: a half-wave plate at normal incidence. -/

set_option linter.unusedSectionVars false

namespace Khepri

open Matrix

/-- A library whose `eig` knows one matrix, `-4` times the identity. -/
noncomputable def plateLib : NumLib where
  eig := fun N M =>
    open Classical in
    if M = (-4 : ℂ) • (1 : Matrix (Fin N ⊕ Fin N) (Fin N ⊕ Fin N) ℂ) then .ok (fun _ => -4, 1) else .error .linAlg
  jv1 := fun _ => 0

theorem plateLib_contract (N : ℕ) : EigContract (plateLib.eig N) := by
  intro M lam W h
  simp only [plateLib] at h
  split_ifs at h with hx
  rw [Except.ok.injEq, Prod.mk.injEq] at h
  obtain ⟨rfl, rfl⟩ := h
  rw [hx, Matrix.mul_one, Matrix.one_mul]
  ext i j
  simp [Matrix.one_apply, diagonal_apply]

/-- A 1 x 1 pixmap of permittivity 4. -/
def platePix : Arr2 := ⟨1, 1, fun _ _ => 4⟩

/-- A structured layer whose only kept coefficient is 4. -/
theorem plate_solveWithC : ∃ r : Solved 1, r.S = (⟨0, -1, -1, 0⟩ : SMat (Fin 1 ⊕ Fin 1)) ∧
    solveWithC plateLib (0 : Fin 1 → ℂ) 0 1 (normalV0 (Fin 1)) ((4 : ℂ) • 1) (1 / 4) (2 * Real.pi / 1) = .ok r := by
  have h4 : (4 : ℂ) = ((2 : ℝ) : ℂ) ^ 2 := by norm_num
  have hdet : ((4 : ℂ) • (1 : Matrix (Fin 1) (Fin 1) ℂ)).det ≠ 0 := by
    rw [det_smul, det_one, mul_one]; norm_num
  have hsq : ((1 / 4 : ℂ) • qBlock (0 : Fin 1 → ℂ) 0 4) * structuredQ (0 : Fin 1 → ℂ) 0 ((4 : ℂ) • 1) =
      (-4 : ℂ) • (1 : Matrix (Fin 1 ⊕ Fin 1) (Fin 1 ⊕ Fin 1) ℂ) := by
    rw [← qBlock_eq_structuredQ, Matrix.smul_mul, qBlock_sq]
    ext i j
    rcases i with i | i <;> rcases j with j | j <;> simp [stack2, diagonal_apply, Matrix.one_apply]
  have hroot : csqrt (-4 : ℂ) = Complex.I * ((2 : ℝ) : ℂ) := by
    have := csqrt_ofReal_neg (x := -4) (by norm_num)
    rw [show Real.sqrt (-(-4)) = 2 by rw [neg_neg, show (4 : ℝ) = 2 ^ 2 by norm_num]; simp] at this
    rw [← this]; norm_num
  have hs : solveStructuredLayer (plateLib.eig 1) (0 : Fin 1 → ℂ) 0 ((4 : ℂ) • 1) =
      .ok (1, ((2 : ℝ) : ℂ) • normalV0 (Fin 1), stack2 fun _ => Complex.I * ((2 : ℝ) : ℂ)) := by
    refine solveStructuredLayer_eq_ok.2 ⟨_, fun _ => -4, structuredP_uniform 0 0 (by norm_num), ?_, ?_, ?_, ?_⟩
    · rw [hsq]; simp [plateLib]
    · funext i
      rw [hroot]
      rcases i with i | i <;> rfl
    · intro i; norm_num
    · rw [Matrix.mul_one, ← qBlock_eq_structuredQ, h4]
      exact (normalV0_smul two_pos).symm
  have hr : buildScatmat 1 (((2 : ℝ) : ℂ) • normalV0 (Fin 1)) 1 (normalV0 (Fin 1))
      (stack2 fun _ => Complex.I * ((2 : ℝ) : ℂ)) (1 / 4) (2 * Real.pi / 1) = .ok ⟨0, -1, -1, 0⟩ := by
    have := halfWave (ι := Fin 1)
    simpa using this
  refine ⟨⟨1, ((2 : ℝ) : ℂ) • normalV0 (Fin 1), stack2 fun _ => Complex.I * ((2 : ℝ) : ℂ), ⟨0, -1, -1, 0⟩,
    .mat ((4 : ℂ) • (1 : Matrix (Fin 1) (Fin 1) ℂ))⁻¹⟩, rfl, ?_⟩
  simp only [ok_bind, solveWithC, npInv_ok hdet, hs, hr]
  rfl

/-- Any pixmap whose only kept coefficient, its mean, is 4. -/
theorem meanFour_solve {a : Arr2} (hC : convolutionMatrix 1 a (1, 1) = .ok ((4 : ℂ) • 1)) :
    ∃ r : Solved 1, r.S = (⟨0, -1, -1, 0⟩ : SMat (Fin 1 ⊕ Fin 1)) ∧
    (Form.fft a).solve plateLib exampleExpansion (1 / 4) (0, 0) 1 = .ok r := by
  obtain ⟨r, h1, h2⟩ := plate_solveWithC
  refine ⟨r, h1, ?_⟩
  simp only [Form.solve, example_kVectors, ok_bind, normal_freeSpace]
  rw [show exampleExpansion.pw = (1, 1) from rfl, hC]
  exact h2

theorem platePix_solve : ∃ r : Solved 1, r.S = (⟨0, -1, -1, 0⟩ : SMat (Fin 1 ⊕ Fin 1)) ∧
    (Form.fft platePix).solve plateLib exampleExpansion (1 / 4) (0, 0) 1 = .ok r := by
  refine meanFour_solve ?_
  have h := convolutionMatrix_ok (a := platePix) (pw := (1, 1)) (by simp [platePix]) (by simp [platePix])
    (by simp [platePix]) (by simp [platePix])
  have := C24_constant (pw := (1, 1)) (by norm_num) (by norm_num) h (e := 4) (fun _ _ => rfl)
  exact h.trans (congrArg Except.ok this)

end Khepri
