import Verif.Lemmas.Rotation
import Verif.Lemmas.Stack
import Verif.Spec.Beams

/-!
# C56: rotated beams
-/

namespace Khepri

open Matrix

/-! ## C56 -/

/-- **C56.** `rotation_matrix` is orthogonal, of determinant 1, and sends the axes to the frame of the beam. -/
theorem C56_rotation (theta phi psi : ℝ) :
    (rotationMatrix theta phi psi)ᵀ * rotationMatrix theta phi psi = 1 ∧ (rotationMatrix theta phi psi).det = 1 ∧
      rotationMatrix theta phi psi *ᵥ ![1, 0, 0] = beamPol theta phi psi ∧
      rotationMatrix theta phi psi *ᵥ ![0, 1, 0] = beamOther theta phi psi ∧
      rotationMatrix theta phi psi *ᵥ ![0, 0, 1] = beamDir theta phi :=
  ⟨rotationMatrix_orth .., rotationMatrix_det .., rotationMatrix_x .., rotationMatrix_y .., rotationMatrix_z ..⟩

/-- **C56.** The fields of a rotated, shifted beam at `r` are those of the beam at the coordinates of `r - origin` along
its frame, with components along that frame. -/
theorem C56_fields (f : FieldFn) (o : Fin 3 → ℝ) (theta phi psi : ℝ) (r : Fin 3 → ℝ) : ∃ E H,
    shiftedRotatedFields f o theta phi psi r = .ok (E, H) ∧
    (∀ i, E i = (f (beamCoords theta phi psi (r - o))).1 0 * beamPol theta phi psi i +
      (f (beamCoords theta phi psi (r - o))).1 1 * beamOther theta phi psi i +
      (f (beamCoords theta phi psi (r - o))).1 2 * beamDir theta phi i) ∧
    (∀ i, H i = (f (beamCoords theta phi psi (r - o))).2 0 * beamPol theta phi psi i +
      (f (beamCoords theta phi psi (r - o))).2 1 * beamOther theta phi psi i +
      (f (beamCoords theta phi psi (r - o))).2 2 * beamDir theta phi i) := by
  obtain ⟨-, -, hx, hy, hz⟩ := C56_rotation theta phi psi
  have col : ∀ i, rotationMatrix theta phi psi i 0 = beamPol theta phi psi i ∧
      rotationMatrix theta phi psi i 1 = beamOther theta phi psi i ∧
      rotationMatrix theta phi psi i 2 = beamDir theta phi i := by
    intro i
    refine ⟨?_, ?_, ?_⟩
    · rw [← hx]; simp [mulVec, dotProduct, Fin.sum_univ_three]
    · rw [← hy]; simp [mulVec, dotProduct, Fin.sum_univ_three]
    · rw [← hz]; simp [mulVec, dotProduct, Fin.sum_univ_three]
  have hc : (rotationMatrix theta phi psi)ᵀ *ᵥ (r - o) = beamCoords theta phi psi (r - o) := by
    ext i
    fin_cases i <;> simp [mulVec, dotProduct, beamCoords, col]
  refine ⟨_, _, shiftedRotatedFields_ok f o theta phi psi r, ?_, ?_⟩ <;>
  · intro i
    rw [hc]
    simp only [mulVec, dotProduct, Fin.sum_univ_three, Matrix.map_apply, col]
    ring

/-- **C56.** The frame of a beam is orthonormal and right-handed. -/
theorem C56_frame (theta phi psi : ℝ) :
    beamPol theta phi psi ⬝ᵥ beamPol theta phi psi = 1 ∧ beamOther theta phi psi ⬝ᵥ beamOther theta phi psi = 1 ∧
    beamDir theta phi ⬝ᵥ beamDir theta phi = 1 ∧ beamPol theta phi psi ⬝ᵥ beamOther theta phi psi = 0 ∧
    beamPol theta phi psi ⬝ᵥ beamDir theta phi = 0 ∧ beamOther theta phi psi ⬝ᵥ beamDir theta phi = 0 ∧
    crossProduct (beamPol theta phi psi) (beamOther theta phi psi) = beamDir theta phi := by
  obtain ⟨ho, -, hx, hy, hz⟩ := C56_rotation theta phi psi
  have key : ∀ u v, (rotationMatrix theta phi psi *ᵥ u) ⬝ᵥ (rotationMatrix theta phi psi *ᵥ v) = u ⬝ᵥ v := by
    intro u v
    rw [dotProduct_mulVec, ← mulVec_transpose, mulVec_mulVec, ho, one_mulVec]
  have hp := Real.sin_sq_add_cos_sq phi
  have ht := Real.sin_sq_add_cos_sq theta
  have hs := Real.sin_sq_add_cos_sq psi
  refine ⟨?_, ?_, ?_, ?_, ?_, ?_, ?_⟩
  · rw [← hx, key]; simp
  · rw [← hy, key]; simp
  · rw [← hz, key]; simp
  · rw [← hx, ← hy, key]; simp
  · rw [← hx, ← hz, key]; simp
  · rw [← hy, ← hz, key]; simp
  · ext i
    fin_cases i <;>
      simp [crossProduct, beamPol, beamOther, beamDir, polarDir, azimuthDir]
    · linear_combination Real.sin theta * Real.cos phi * hs
    · linear_combination Real.sin theta * Real.sin phi * hs
    · linear_combination Real.cos theta * Real.cos psi ^ 2 * hp + Real.cos theta * Real.sin psi ^ 2 * hp +
        Real.cos theta * hs

/-- **C56.** So amplitudes are kept, and what was transverse to z is transverse to the direction of the beam. -/
theorem C56_rigid (f : FieldFn) (o : Fin 3 → ℝ) (theta phi psi : ℝ) (r : Fin 3 → ℝ) : ∃ E H,
    shiftedRotatedFields f o theta phi psi r = .ok (E, H) ∧
    ∑ i, ‖E i‖ ^ 2 = ∑ i, ‖(f (beamCoords theta phi psi (r - o))).1 i‖ ^ 2 ∧
    ∑ i, ‖H i‖ ^ 2 = ∑ i, ‖(f (beamCoords theta phi psi (r - o))).2 i‖ ^ 2 ∧
    ∑ i, (beamDir theta phi i : ℂ) * E i = (f (beamCoords theta phi psi (r - o))).1 2 ∧
    ∑ i, (beamDir theta phi i : ℂ) * H i = (f (beamCoords theta phi psi (r - o))).2 2 := by
  obtain ⟨E, H, h, hE, hH⟩ := C56_fields f o theta phi psi r
  obtain ⟨f1, f2, f3, f4, f5, f6, -⟩ := C56_frame theta phi psi
  generalize beamPol theta phi psi = p at *
  generalize beamOther theta phi psi = q at *
  generalize beamDir theta phi = d at *
  generalize f (beamCoords theta phi psi (r - o)) = F at *
  simp only [dotProduct, Fin.sum_univ_three] at f1 f2 f3 f4 f5 f6
  have key : ∀ (G a : Fin 3 → ℂ), (∀ i, G i = a 0 * p i + a 1 * q i + a 2 * d i) →
      ∑ i, ‖G i‖ ^ 2 = ∑ i, ‖a i‖ ^ 2 ∧ ∑ i, (d i : ℂ) * G i = a 2 := by
    intro G a hG
    have sq : ∀ z : ℂ, ‖z‖ ^ 2 = z.re ^ 2 + z.im ^ 2 := fun z => by
      rw [← Complex.normSq_eq_norm_sq, Complex.normSq_apply]; ring
    constructor
    · simp only [Fin.sum_univ_three, sq, hG]
      simp only [Complex.add_re, Complex.add_im, Complex.mul_re, Complex.mul_im, Complex.ofReal_re, Complex.ofReal_im,
        mul_zero, sub_zero, zero_add]
      linear_combination ((a 0).re ^ 2 + (a 0).im ^ 2) * f1 + ((a 1).re ^ 2 + (a 1).im ^ 2) * f2 +
        ((a 2).re ^ 2 + (a 2).im ^ 2) * f3 + 2 * ((a 0).re * (a 1).re + (a 0).im * (a 1).im) * f4 +
        2 * ((a 0).re * (a 2).re + (a 0).im * (a 2).im) * f5 + 2 * ((a 1).re * (a 2).re + (a 1).im * (a 2).im) * f6
    · have c3 : (d 0 : ℂ) * d 0 + d 1 * d 1 + d 2 * d 2 = 1 := by exact_mod_cast f3
      have c5 : (p 0 : ℂ) * d 0 + p 1 * d 1 + p 2 * d 2 = 0 := by exact_mod_cast f5
      have c6 : (q 0 : ℂ) * d 0 + q 1 * d 1 + q 2 * d 2 = 0 := by exact_mod_cast f6
      simp only [Fin.sum_univ_three, hG]
      linear_combination a 0 * c5 + a 1 * c6 + a 2 * c3
  exact ⟨E, H, h, (key E _ hE).1, (key H _ hH).1, (key E _ hE).2, (key H _ hH).2⟩

/-- **C56.** A plane wave going along z, polarised along x, becomes the plane wave going along the requested direction,
polarised along `beamPol`. -/
theorem C56_plane_wave (k : ℝ) (o : Fin 3 → ℝ) (theta phi psi : ℝ) (r : Fin 3 → ℝ) : ∃ E H,
    shiftedRotatedFields (fun r => (![Complex.exp (Complex.I * ↑(k * r 2)), 0, 0],
      ![0, Complex.exp (Complex.I * ↑(k * r 2)), 0])) o theta phi psi r = .ok (E, H) ∧
    (∀ i, E i = Complex.exp (Complex.I * ↑(k * (beamDir theta phi ⬝ᵥ (r - o)))) * beamPol theta phi psi i) ∧
    (∀ i, H i = Complex.exp (Complex.I * ↑(k * (beamDir theta phi ⬝ᵥ (r - o)))) * beamOther theta phi psi i) := by
  obtain ⟨E, H, h, hE, hH⟩ := C56_fields (fun r => (![Complex.exp (Complex.I * ↑(k * r 2)), 0, 0],
      ![0, Complex.exp (Complex.I * ↑(k * r 2)), 0])) o theta phi psi r
  refine ⟨E, H, h, fun i => ?_, fun i => ?_⟩
  · rw [hE i]; simp [beamCoords, dotProduct]
  · rw [hH i]; simp [beamCoords, dotProduct]

/-- Non-vacuity of C56: at polar angle 90° the beam goes along x and is polarised along -z. -/
example : beamDir (Real.pi / 2) 0 = ![1, 0, 0] ∧ beamPol (Real.pi / 2) 0 0 = ![0, 0, -1] := by
  constructor <;> ext i <;> fin_cases i <;> simp [beamDir, beamPol, polarDir, azimuthDir]

end Khepri
