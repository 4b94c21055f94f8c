import Verif.Model.Draw
import Verif.Model.Parallel

/-!
# `strided_convolution`, `quiver` and `coords` of `khepri/misc.py`
-/

namespace Khepri

/-- A two-dimensional numpy array as it is in memory: `memory` is all of it, before and after the array included;
element `(i, j)` is at address `base + i * s0 + j * s1` (in elements; strides may be negative or not contiguous). -/
structure View where
  memory : ℤ → ℝ
  base : ℤ
  s0 : ℤ
  s1 : ℤ
  rows : ℕ
  cols : ℕ

/-- Element `(i, j)`. -/
def View.at (a : View) (i j : ℕ) : ℝ := a.memory (a.base + i * a.s0 + j * a.s1)

/-- `strided_convolution(image, weight, stride)`, `misc.py:36-44`: the shape of the result and its elements.  `//` is the
floor division, which raises `ZeroDivisionError` for a null stride; `as_strided` raises `ValueError` for a negative
dimension and checks nothing else. -/
noncomputable def stridedConvolution (image : View) (weight : RArr2) (stride : ℤ) :
    Py (ℕ × ℕ × (ℕ → ℕ → ℝ)) := do
  pyCheck (stride ≠ 0) .nonFinite
  let h := 1 + Int.fdiv ((image.rows : ℤ) - weight.nx) stride
  let w := 1 + Int.fdiv ((image.cols : ℤ) - weight.ny) stride
  pyCheck (0 ≤ h ∧ 0 ≤ w) .value
  let windows := fun (a b : ℕ) (c : Fin weight.nx) (d : Fin weight.ny) =>
    image.memory (image.base + a * (image.s0 * stride) + b * (image.s1 * stride) + c * image.s0 + d * image.s1)
  return (h.toNat, w.toNat, fun a b => ∑ c, ∑ d, windows a b c d * weight.val c d)

/-- What `ax.quiver` is called with: positions, then horizontal and vertical components of the arrows. -/
structure Arrows where
  x : ℕ × ℕ × (ℕ → ℕ → ℝ)
  y : ℕ × ℕ × (ℕ → ℕ → ℝ)
  u : ℕ × ℕ × (ℕ → ℕ → ℝ)
  v : ℕ × ℕ × (ℕ → ℕ → ℝ)

/-- `quiver(ax, X, Y, VX, VY, subsample)`, `misc.py:45-50`, up to the call of `ax.quiver(X, Y, VY, VX)`; `kk**2` is a
division by zero for no `subsample` (there is no integer one with `2 * subsample + 1 = 0`); `np.ones` raises `ValueError`
for a negative size. -/
noncomputable def quiver (X Y VX VY : View) (subsample : ℤ) : Py Arrows := do
  let kk := subsample * 2 + 1
  pyCheck (0 ≤ kk) .value
  let K : RArr2 := ⟨kk.toNat, kk.toNat, fun _ _ => 1 / (kk : ℝ) ^ 2⟩
  let vx ← stridedConvolution VX K subsample
  let vy ← stridedConvolution VY K subsample
  let x ← stridedConvolution X K subsample
  let y ← stridedConvolution Y K subsample
  return ⟨x, y, vy, vx⟩

/-- `coords(xmin, xmax, ymin, ymax, zmin, zmax, resolution)`, `misc.py:28-32`: two arrays of shape
`(resolution[1], resolution[0])` and a list. -/
noncomputable def coords (xmin xmax ymin ymax zmin zmax : ℝ) (resolution : ℕ × ℕ × ℕ) : RArr2 × RArr2 × List ℝ :=
  let (rx, ry, rz) := resolution
  (⟨ry, rx, fun _ j => linspaceAt xmin xmax rx j⟩, ⟨ry, rx, fun i _ => linspaceAt ymin ymax ry i⟩,
    (List.range rz).map (linspaceAt zmin zmax rz))

end Khepri
