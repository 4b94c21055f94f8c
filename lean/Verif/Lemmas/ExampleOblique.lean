import Verif.Lemmas.FieldsReal
import Verif.Lemmas.ExampleFields

/-!
An oblique plane wave in vacuum, with a single order.
-/

set_option linter.unusedSectionVars false

namespace Khepri

open Matrix

/-- In vacuum, at a depth where the Fourier components of an oblique wave obey Maxwell's equations, the real-space
fields do so only if the component of the magnetic field across the plane of incidence vanishes. -/
theorem oblique_fails {κ : ℝ} (h0 : κ ≠ 0) (h1 : 1 - κ ^ 2 ≠ 0) {F : ℝ → Fields6 1} {G : ℝ → ℝ → ℝ → Crystal.Point6} {z : ℝ}
    (hc : CurlEquations (orderKx exampleExpansion (2 * Real.pi * κ, 0) 1) (orderKy exampleExpansion (2 * Real.pi * κ, 0) 1)
      (2 * Real.pi / 1) (((1 : ℝ) : ℂ) • 1) F z)
    (hG : ∀ x y z, G x y z = pointOf exampleExpansion (((2 * Real.pi * κ : ℝ) : ℂ), ((0 : ℝ) : ℂ)) (F z) x y)
    {k0 : ℝ} (hk : k0 = 2 * Real.pi ∨ k0 = -(2 * Real.pi)) (h : RealMaxwell k0 1 G 0 0 z) : (F z).uy 0 = 0 := by
  have hpi : (Real.pi : ℂ) ≠ 0 := by exact_mod_cast Real.pi_ne_zero
  have hκ : (κ : ℂ) ≠ 0 := by exact_mod_cast h0
  have hκ' : (1 : ℂ) - κ ^ 2 ≠ 0 := by exact_mod_cast h1
  have hI := Complex.I_mul_I
  have sz := hc.ez 0
  have dex := hc.ex 0
  simp only [oblique_kx, oblique_ky, Complex.ofReal_one, one_smul, Matrix.one_mulVec, Complex.ofReal_zero, zero_mul,
    sub_zero] at sz dex
  have vx : ∀ s : Fin 1 → ℂ, HasDerivAt (fun x : ℝ => idft s
      (fun i => ((2 * Real.pi * κ : ℝ) : ℂ) + ((exampleExpansion.g i).1 : ℂ))
      (fun i => ((0 : ℝ) : ℂ) + ((exampleExpansion.g i).2 : ℂ)) x 0)
      (Complex.I * (2 * Real.pi * κ) * s 0) 0 := by
    intro s
    refine (hasDerivAt_idft_x _ _ _ _ _).congr_deriv ?_
    simp [idft, exampleExpansion]
  have vy : ∀ s : Fin 1 → ℂ, HasDerivAt (fun y : ℝ => idft s
      (fun i => ((2 * Real.pi * κ : ℝ) : ℂ) + ((exampleExpansion.g i).1 : ℂ))
      (fun i => ((0 : ℝ) : ℂ) + ((exampleExpansion.g i).2 : ℂ)) 0 y) 0 0 := by
    intro s
    refine (hasDerivAt_idft_y _ _ _ _ _).congr_deriv ?_
    simp [idft, exampleExpansion]
  have v0 : ∀ s : Fin 1 → ℂ, idft s
      (fun i => ((2 * Real.pi * κ : ℝ) : ℂ) + ((exampleExpansion.g i).1 : ℂ))
      (fun i => ((0 : ℝ) : ℂ) + ((exampleExpansion.g i).2 : ℂ)) 0 0 = s 0 := by
    intro s
    simp [idft]
  rcases hk with rfl | rfl
  · obtain ⟨a, b, ha, hb, hab⟩ := h.ez
    simp only [hG, pointOf] at ha hb hab
    rw [ha.unique (vx _), hb.unique (vy _), v0, sz] at hab
    push_cast at hab
    have : 4 * (Complex.I * Real.pi * κ) * (F z).uy 0 = 0 := by linear_combination hab
    simpa [hpi, hκ] using this
  · obtain ⟨a, b, ha, hb, hab⟩ := h.hy
    simp only [hG, pointOf] at ha hb hab
    simp only [v0] at ha hab
    rw [ha.unique dex, hb.unique (vx _), sz] at hab
    push_cast at hab
    have : 4 * Real.pi * (1 - κ ^ 2) * (F z).uy 0 = 0 := by
      linear_combination hab - (4 * Real.pi * κ ^ 2 * (F z).uy 0) * hI
    simpa [hpi, hκ'] using this

theorem oblique_outer {κ : ℝ} (p : Port (Fin 1 ⊕ Fin 1)) :
    (outerField (orderKx exampleExpansion (2 * Real.pi * κ, 0) 1) (orderKy exampleExpansion (2 * Real.pi * κ, 0) 1) 1 p).H
      (.inr 0) = -((p.bwd (.inl 0) - p.fwd (.inl 0)) / (Complex.I * outerKz (1 - κ ^ 2))) := by
  simp [outerField, maxwellQ_mulVec, oblique_kx, oblique_ky]

end Khepri
