import Verif.Model.Transforms

/-!
# Fields of plane waves (specification)
-/

namespace Khepri

open Complex

/-- The value at `(x, y)` of the field of a square cell of side `a` whose amplitudes form a square array with the
order zero in its middle: columns are orders along `x`, rows orders along `y`; `kp` is the Bloch vector. -/
noncomputable def squareField {p : ℕ} (f : Fin p → Fin p → ℂ) (a : ℝ) (kp : ℂ × ℂ) (x y : ℝ) : ℂ :=
  ∑ m : Fin p, ∑ n : Fin p, f m n *
    exp (I * ((kp.1 + 2 * Real.pi * (((n : ℤ) - (p : ℤ) / 2 : ℤ) : ℂ) / a) * x
      + (kp.2 + 2 * Real.pi * (((m : ℤ) - (p : ℤ) / 2 : ℤ) : ℂ) / a) * y))

/-- The value at `(x, y)` of a sum of plane waves with amplitudes `f` and wave vectors `(kx, ky)`. -/
noncomputable def wavesField {ι : Type} [Fintype ι] (f kx ky : ι → ℂ) (x y : ℝ) : ℂ :=
  ∑ g, f g * exp (I * (kx g * x + ky g * y))

end Khepri
