import Verif.Model.Numpy

/-!
# Matrix layouts: `khepri/misc.py` (`block_split`, `split`) and `khepri/tools.py` (`block2dense`)

Arrays carry their shape and a function of natural indices that is only read inside the shape.  Reshapes go through
the position in memory (C order).
-/

namespace Khepri

/-- A two-dimensional array. -/
structure NArr2 where
  n0 : ℕ
  n1 : ℕ
  at_ : ℕ → ℕ → ℂ

/-- A three-dimensional array. -/
structure NArr3 where
  n0 : ℕ
  n1 : ℕ
  n2 : ℕ
  at_ : ℕ → ℕ → ℕ → ℂ

/-- A four-dimensional array. -/
structure NArr4 where
  n0 : ℕ
  n1 : ℕ
  n2 : ℕ
  n3 : ℕ
  at_ : ℕ → ℕ → ℕ → ℕ → ℂ

/-- The element in position `f` of the memory of a contiguous array. -/
def NArr2.flat (a : NArr2) (f : ℕ) : ℂ := a.at_ (f / a.n1) (f % a.n1)

@[inherit_doc NArr2.flat]
def NArr4.flat (a : NArr4) (f : ℕ) : ℂ :=
  a.at_ (f / (a.n1 * a.n2 * a.n3)) (f / (a.n2 * a.n3) % a.n1) (f / a.n3 % a.n2) (f % a.n3)

/-- `np.swapaxes(a, 1, 2)` (copied to contiguous memory by the `reshape` that follows). -/
def NArr4.swap12 (a : NArr4) : NArr4 := ⟨a.n0, a.n2, a.n1, a.n3, fun i j k l => a.at_ i k j l⟩

/-- `a.reshape(d0, d1)`; the sizes agree where it is used. -/
def NArr4.reshape2 (a : NArr4) (d0 d1 : ℕ) : NArr2 := ⟨d0, d1, fun i j => a.flat (i * d1 + j)⟩

/-- `block_split(S)`, `misc.py:12-18`.  Blocks of different widths make `np.asarray` raise `ValueError`. -/
def blockSplit (S : NArr2) : Py NArr4 := do
  let m := S.n0 / 2
  let w1 := min m S.n1
  let w2 := min (2 * m) S.n1 - min m S.n1
  pyCheck (w1 = w2) .value
  return ⟨2, 2, m, w1, fun p q i j => S.at_ (p * m + i) (q * m + j)⟩

/-- `block2dense(block_matrix)`, `tools.py:26-30`. -/
def block2dense (B : NArr4) : NArr2 := B.swap12.reshape2 (B.n0 * B.n2) (B.n1 * B.n3)

/-- `split(array, nrows, ncols)`, `misc.py:20-26`: `array.reshape(h//nrows, nrows, -1, ncols)` (which raises
`ValueError` unless the sizes divide), `swapaxes(1, 2)`, `reshape(-1, nrows, ncols)`. -/
def splitTiles (a : NArr2) (nrows ncols : ℕ) : Py NArr3 := do
  pyCheck (nrows ≠ 0) .nonFinite
  let d0 := a.n1 / nrows
  pyCheck (d0 * nrows * ncols ≠ 0 ∧ d0 * nrows * ncols ∣ a.n0 * a.n1) .value
  let d2 := a.n0 * a.n1 / (d0 * nrows * ncols)
  let r : NArr4 := ⟨d0, nrows, d2, ncols, fun i j k l => a.flat (((i * nrows + j) * d2 + k) * ncols + l)⟩
  return ⟨d0 * d2, nrows, ncols, fun t i j => r.swap12.flat ((t * nrows + i) * ncols + j)⟩

end Khepri
