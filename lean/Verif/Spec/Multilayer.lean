import Verif.Spec.Device
import Mathlib.Analysis.SpecialFunctions.Pow.Complex
import Mathlib.Analysis.SpecialFunctions.Trigonometric.Basic

/-!
# Stacks of uniform layers (specification): the characteristic matrices of the optics textbooks

Time dependence `exp(+iωt)`; a wave going forward has the phase `exp(-i kz z)`.  Lengths are in units of `1/k0`, wave
vectors in units of `k0`.
-/

namespace Khepri

open Matrix

/-- The two polarisations of a plane wave: electric field across the plane of incidence, or in it. -/
inductive Polarisation
  | te
  | tm

/-- The tangential electric field `u` of a wave of in-plane wave vector `(kx, ky)` has the polarisation. -/
def Polarisation.Holds (kx ky : ℝ) (u : ℂ × ℂ) : Polarisation → Prop
  | .te => kx * u.1 + ky * u.2 = 0
  | .tm => kx * u.2 - ky * u.1 = 0

/-- Optical admittance of a medium: ratio of the tangential magnetic and electric fields of a forward wave. -/
noncomputable def Polarisation.admittance (eps kz : ℂ) : Polarisation → ℂ
  | .te => kz
  | .tm => eps / kz

/-- Characteristic matrix of a layer of admittance `η` and phase thickness `δ`: from the tangential fields on its far
face to those on its near face. -/
noncomputable def charMatrix (η δ : ℂ) : Matrix (Fin 2) (Fin 2) ℂ :=
  !![Complex.cos δ, Complex.I * Complex.sin δ / η; Complex.I * η * Complex.sin δ, Complex.cos δ]

/-- A longitudinal wave number of a medium at in-plane wave number `κ` (`κ2 = κ²`). -/
noncomputable def layerKz (κ2 : ℝ) (eps : ℂ) : ℂ := (eps - κ2) ^ (1 / 2 : ℂ)

/-- Characteristic matrix of a stack of layers `(permittivity, depth)`: the product of those of the layers. -/
noncomputable def abeles (pol : Polarisation) (κ2 k0 : ℝ) (l : List (ℂ × ℝ)) : Matrix (Fin 2) (Fin 2) ℂ :=
  (l.map fun x => charMatrix (pol.admittance x.1 (layerKz κ2 x.1)) (layerKz κ2 x.1 * (x.2 * k0))).prod

/-- Admittance of an outer medium. -/
noncomputable def outerAdmittance (pol : Polarisation) (κ2 er : ℝ) : ℂ := pol.admittance er (outerKz (er - κ2))

/-- The vector `(B, C) = M (1, η)` of a stack on a medium of permittivity `et`. -/
noncomputable def stackFields (pol : Polarisation) (κ2 k0 : ℝ) (l : List (ℂ × ℝ)) (et : ℝ) : Fin 2 → ℂ :=
  abeles pol κ2 k0 l *ᵥ ![1, outerAdmittance pol κ2 et]

/-- Denominator `η0 B + C` of both coefficients. -/
noncomputable def stackDenominator (pol : Polarisation) (κ2 k0 : ℝ) (l : List (ℂ × ℝ)) (er et : ℝ) : ℂ :=
  outerAdmittance pol κ2 er * stackFields pol κ2 k0 l et 0 + stackFields pol κ2 k0 l et 1

/-- Amplitude reflected, for the tangential electric field. -/
noncomputable def reflection (pol : Polarisation) (κ2 k0 : ℝ) (l : List (ℂ × ℝ)) (er et : ℝ) : ℂ :=
  (outerAdmittance pol κ2 er * stackFields pol κ2 k0 l et 0 - stackFields pol κ2 k0 l et 1) /
    stackDenominator pol κ2 k0 l er et

/-- Amplitude transmitted, for the tangential electric field. -/
noncomputable def transmission (pol : Polarisation) (κ2 k0 : ℝ) (l : List (ℂ × ℝ)) (er et : ℝ) : ℂ :=
  2 * outerAdmittance pol κ2 er / stackDenominator pol κ2 k0 l er et

/-- Amplitudes of a plane wave of order `i` with tangential electric field `u`. -/
def orderWave {ι : Type} [DecidableEq ι] (i : ι) (u : ℂ × ℂ) : ι ⊕ ι → ℂ := Sum.elim (Pi.single i u.1) (Pi.single i u.2)

end Khepri
