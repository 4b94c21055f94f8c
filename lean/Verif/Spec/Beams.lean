import Verif.Model.Numpy
import Mathlib.Analysis.SpecialFunctions.Trigonometric.Basic
import Mathlib.LinearAlgebra.Matrix.Notation
import Mathlib.Analysis.Calculus.Deriv.Basic
import Mathlib.Analysis.Complex.Basic
import Mathlib.Analysis.SpecialFunctions.Exp

/-!
# Directions, Brillouin-zone grids and paths (specification)
-/

namespace Khepri

/-- The direction of polar angle `theta` and azimuth `phi`. -/
noncomputable def beamDir (theta phi : ℝ) : Fin 3 → ℝ :=
  ![Real.sin theta * Real.cos phi, Real.sin theta * Real.sin phi, Real.cos theta]

/-- The unit vector along which the polar angle grows. -/
noncomputable def polarDir (theta phi : ℝ) : Fin 3 → ℝ :=
  ![Real.cos theta * Real.cos phi, Real.cos theta * Real.sin phi, -Real.sin theta]

/-- The unit vector along which the azimuth grows. -/
noncomputable def azimuthDir (phi : ℝ) : Fin 3 → ℝ := ![-Real.sin phi, Real.cos phi, 0]

/-- The polarisation of a beam: `psi` is the angle from the polar to the azimuthal direction. -/
noncomputable def beamPol (theta phi psi : ℝ) : Fin 3 → ℝ :=
  Real.cos psi • polarDir theta phi + Real.sin psi • azimuthDir phi

/-- The third vector of the frame of a beam. -/
noncomputable def beamOther (theta phi psi : ℝ) : Fin 3 → ℝ :=
  Real.cos psi • azimuthDir phi - Real.sin psi • polarDir theta phi

/-- Coordinates of `v` along the frame of a beam. -/
noncomputable def beamCoords (theta phi psi : ℝ) (v : Fin 3 → ℝ) : Fin 3 → ℝ :=
  ![∑ i, beamPol theta phi psi i * v i, ∑ i, beamOther theta phi psi i * v i, ∑ i, beamDir theta phi i * v i]

/-- The point names of `bz_path` and their in-plane wave vectors, on a square lattice of period `a`. -/
noncomputable def namedKPoint (a : ℝ) (k : String) : Option (ℝ × ℝ) :=
  match k with
  | "G" => some (0, 0)
  | "X" => some (0, 99 / 100 * (Real.pi / a))
  | "M" => some (99 / 100 * (Real.pi / a), 99 / 100 * (Real.pi / a))
  | _ => none

/-- The reciprocal vectors `gen_bzi_grid` was asked for: those given, or those of the square lattice of period `a`. -/
noncomputable def zoneBasis (a : ℝ) (rec : Option ((ℝ × ℝ) × ℝ × ℝ)) : (ℝ × ℝ) × ℝ × ℝ :=
  rec.getD ((2 * Real.pi / a, 0), (0, 2 * Real.pi / a))

/-- How many samples segment `i` gets: `10` by default, one number for all segments, or one number each. -/
def segmentSamples (res : List ℤ) (i : ℕ) : ℤ :=
  match res with
  | [] => 10
  | [r] => r
  | res => res.getD i 0

/-- `u` obeys the paraxial equation `∂²u/∂x² + ∂²u/∂y² + 2 i k ∂u/∂z = 0` everywhere. -/
def ParaxialEnvelope (k : ℝ) (u : ℝ → ℝ → ℝ → ℂ) : Prop :=
  ∃ ux uxx uy uyy uz : ℝ → ℝ → ℝ → ℂ, ∀ x y z,
    HasDerivAt (fun t => u t y z) (ux x y z) x ∧ HasDerivAt (fun t => ux t y z) (uxx x y z) x ∧
    HasDerivAt (fun t => u x t z) (uy x y z) y ∧ HasDerivAt (fun t => uy x t z) (uyy x y z) y ∧
    HasDerivAt (fun t => u x y t) (uz x y z) z ∧
    uxx x y z + uyy x y z + 2 * Complex.I * k * uz x y z = 0

/-- `ψ = u exp(i k z)` is a paraxial wave of wave number `k` going to `+z` (time dependence `exp(-iωt)`). -/
def ParaxialWave (k : ℝ) (ψ : ℝ → ℝ → ℝ → ℂ) : Prop :=
  ParaxialEnvelope k fun x y z => ψ x y z * Complex.exp (-(Complex.I * (k * z)))

end Khepri
