import Verif.Model.Tools
import Verif.Model.Stack

/-!
# `khepri/fourier.py`: analytical Fourier transforms of islands, discrete Fourier sums
-/

namespace Khepri

open Complex

/-- The numerical routines Khepri takes from libraries without modelling their algorithm:
`numpy.linalg.eig` at every size and the Bessel function `scipy.special.jv(1.0, ·)`. -/
structure NumLib where
  eig : (N : ℕ) → EigSolver (Fin N ⊕ Fin N)
  jv1 : ℝ → ℝ

/-- `fexpz`, `fourier.py:7-20`, one element. -/
noncomputable def fexpz (z : ℂ) : ℂ :=
  open Classical in
  if ‖z‖ > 1 / 100 then (exp z - 1) / z
  else 1 + z / 2 * (1 + z / 3 * (1 + z / 4 * (1 + z / 5 * (1 + z / 6 * (1 + z / 7)))))

/-- `transform_rectangle(ll0, ll1, ur0, ur1, Gx, Gy, sigma)`, `fourier.py:28-39`, one element
(`sigma ≠ 0`). -/
noncomputable def transformRectangle (ll0 ll1 ur0 ur1 : ℝ) (g : R2) (sigma : ℝ) : ℂ :=
  let a := ur0 - ll0
  let b := ur1 - ll1
  a * b / sigma * fexpz (-I * g.1 * a) * fexpz (-I * g.2 * b) * exp (-I * (ll0 * g.1 + ll1 * g.2))

/-- `transform_disc(center0, center1, radius, Gx, Gy, sigma)`, `fourier.py:42-58`, one element.
`np.isclose(G, 0.0)` is `|G| ≤ 1e-8`. -/
noncomputable def transformDisc (jv1 : ℝ → ℝ) (c0 c1 r : ℝ) (g : R2) (sigma : ℝ) : Py ℂ := do
  let norm := Real.sqrt (g.1 * g.1 + g.2 * g.2) * r
  if |g.1| ≤ 1 / 10 ^ 8 ∧ |g.2| ≤ 1 / 10 ^ 8 then
    return (Real.pi * r ^ 2 / sigma : ℝ)
  else
    if norm = 0 then throw .nonFinite
    return (Real.pi * r ^ 2 / sigma * 2 : ℝ) * exp (-I * (c0 * g.1 + c1 * g.2)) * (jv1 norm : ℂ) / norm

/-- The island shapes of an islands description; `transform` looks up `transform_<type>`
(`fourier.py:23-25`), and there is none for ellipses. -/
inductive Shape
  | rectangle (ll0 ll1 ur0 ur1 : ℝ)
  | disc (c0 c1 r : ℝ)
  | ellipse (x y a b rot : ℝ)

/-- One entry of an islands description (`Drawing.islands()`). -/
structure Island where
  shape : Shape
  eps : ℂ

/-- `transform(shape, p, Gx, Gy, sigma)`, `fourier.py:23-25`, one element. -/
noncomputable def transformShape (jv1 : ℝ → ℝ) (s : Shape) (g : R2) (sigma : ℝ) : Py ℂ :=
  match s with
  | .rectangle a b c d => .ok (transformRectangle a b c d g sigma)
  | .disc a b r => transformDisc jv1 a b r g sigma
  | .ellipse .. => .error .attribute

/-- `combine_fourier_masks(islands_data, eps_host, inverse=False)`, `fourier.py:145-159`:
`islands_data` is a list of `(transform values, epsilon)`. -/
noncomputable def combineFourierMasks (data : List (List ℂ × ℂ)) (host : ℂ) : Py (List ℂ) := do
  let first ← pyGet data 0
  let length := first.1.length
  let center := (length - 1) / 2
  let z : List ℂ := List.replicate length 0
  let start := z.set center host
  return data.foldl (fun acc d => List.zipWith (· + ·) acc (d.1.map fun b => (d.2 - host) * b)) start

/-- `idft(ffield, kx, ky, x, y)` at one point, `fourier.py:136-142`. -/
noncomputable def idft {N : ℕ} (f : Fin N → ℂ) (kx ky : Fin N → ℂ) (x y : ℝ) : ℂ :=
  ∑ i, f i * exp (I * (kx i * x + ky i * y))

end Khepri
