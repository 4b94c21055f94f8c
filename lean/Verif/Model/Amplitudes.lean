import Verif.Model.Expansion

/-!
# `amplitudes_from_fields` of `khepri/beams.py`

Arrays over the pixels are functions of the row and the column, with the numbers of rows and columns given apart;
elements are only read in range (theorem `C78_in_range`).
-/

namespace Khepri

open Complex

/-- The row and the column, in the whole image, of the element at position `p` (in C order) of the array of shape
`(bzs[1], bzs[0], h, w)` the two `np.split` make, `beams.py:175-176` and `178-179`: `bzs[0]` blocks of columns first, then
`bzs[1]` blocks of rows, which come first. -/
def splitPixel (bzs : ℕ × ℕ) (h w p : ℕ) : ℕ × ℕ :=
  let c := p / w / h
  (c / bzs.1 * h + p / w % h, c % bzs.1 * w + p % w)

/-- The same after `np.swapaxes(F, 0, 1)`, `beams.py:169-172`: shape `(bzs[0], bzs[1], h, w)`. -/
def swappedPixel (bzs : ℕ × ℕ) (h w p : ℕ) : ℕ × ℕ :=
  let c := p / w / h
  (c % bzs.2 * h + p / w % h, c / bzs.2 * w + p % w)

/-- `amplitudes_from_fields(fields, e, wl, kp, x, y, bzs, a)`, `beams.py:164-191`, for `fields` of shape
`(H, W, 2, 3)` (electric and magnetic field, three components).  `np.split` raises `ZeroDivisionError` for no block and
`ValueError` for blocks of unequal sizes; `reshape(-1, NS, NS)` raises `ValueError` when it does not fit; `Fdft` is an
`np.empty` array whose previous contents are `mem`, and indexing it beyond its end raises `IndexError`.  `slow_dft` is
its Fourier sum (theorem C57).  `wl` and `a` are not used by the code. -/
noncomputable def amplitudesFromFields {N : ℕ} (mem : ℕ → Fin 4 → Fin N → ℂ) (H W : ℕ)
    (fields : ℕ → ℕ → Fin 2 → Fin 3 → ℂ) (e : Expansion N) (kp : ℂ × ℂ) (x y : ℕ → ℕ → ℝ) (bzs : ℕ × ℕ) :
    Py (Fin 4 → Fin N → ℂ) := do
  let F := fun r c => fun i j => fields r c i j / exp (I * (kp.1 * x r c + kp.2 * y r c))
  pyCheck (bzs.1 ≠ 0) .nonFinite
  pyCheck (W % bzs.1 = 0) .value
  pyCheck (bzs.2 ≠ 0) .nonFinite
  pyCheck (H % bzs.2 = 0) .value
  let w := W / bzs.1
  let NS := H / bzs.2
  let size := bzs.1 * bzs.2 * NS * w
  pyCheck (NS ≠ 0 ∧ size % (NS * NS) = 0) .value
  let cells := size / (NS * NS)
  pyCheck (cells ≤ bzs.1 * bzs.2) .index
  let at' := fun i u v => (i * NS + u) * NS + v
  let Fi := fun i u v (j : Fin 4) =>
    let p := swappedPixel bzs NS w (at' i u v)
    F p.1 p.2 ⟨j / 2, by omega⟩ ⟨j % 2, by omega⟩
  let xi := fun i u v => let p := splitPixel bzs NS w (at' i u v); x p.1 p.2
  let yi := fun i u v => let p := splitPixel bzs NS w (at' i u v); y p.1 p.2
  let slow := fun i j g => ∑ u ∈ Finset.range NS, ∑ v ∈ Finset.range NS,
    Fi i u v j * exp (-(I * ((e.g g).1 * xi i u v + (e.g g).2 * yi i u v)))
  let Fdft := fun i j g => if i < cells then slow i j g / cells / NS else mem i j g
  return fun j g => ∑ i ∈ Finset.range (bzs.1 * bzs.2), Fdft i j g

end Khepri
