import Verif.Model.Tools

/-!
# Discrete Fourier coefficients (specification)
-/

namespace Khepri

/-- The discrete Fourier coefficient of a sampled pattern at order `(m, n)`: the average of
`a[x, y] exp(-2πi (m x / nx + n y / ny))` over the pixels. -/
noncomputable def fourierCoef (a : Arr2) (m n : ℤ) : ℂ :=
  (∑ x, ∑ y, a.val x y *
    Complex.exp (-(2 * Real.pi * Complex.I * (m * (x : ℕ) / a.nx + n * (y : ℕ) / a.ny)))) /
    (a.nx * a.ny)

end Khepri
