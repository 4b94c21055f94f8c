import Verif.Model.Expansion

/-!
# Convolution matrices and block layouts: `khepri/tools.py`
-/

namespace Khepri

open Matrix

/-- A 2-D complex array `a[i, j]` of shape `(nx, ny)`. -/
structure Arr2 where
  nx : ℕ
  ny : ℕ
  val : Fin nx → Fin ny → ℂ

/-- `np.fft.fft2(a)`: `out[k, l] = Σ a[x, y] exp(-2πi (k x / nx + l y / ny))`. -/
noncomputable def fft2 (a : Arr2) : Arr2 :=
  ⟨a.nx, a.ny, fun k l => ∑ x, ∑ y, a.val x y *
    Complex.exp (-(2 * Real.pi * Complex.I * ((k : ℕ) * (x : ℕ) / a.nx + (l : ℕ) * (y : ℕ) / a.ny)))⟩

/-- The position that `np.fft.fftshift` (a roll by `n // 2`) reads for output position `j`. -/
def fftshiftSource {n : ℕ} (j : Fin n) : Fin n :=
  ⟨(j + (n - n / 2)) % n, Nat.mod_lt _ (by have := j.2; omega)⟩

/-- `np.fft.fftshift(a)` on both axes. -/
def fftshift (a : Arr2) : Arr2 :=
  ⟨a.nx, a.ny, fun i j => a.val (fftshiftSource i) (fftshiftSource j)⟩

/-- `convolution_matrix_fourier(fourier_coefficients, harmonics)`, `tools.py:38-56`.  Row `r` of the
result is `qrow*P + prow`, so `prow = r % P` and `qrow = r // P`; `N = prod(harmonics)`.  Array accesses
follow numpy's index rules (negative indices wrap, `IndexError` otherwise). -/
def convolutionMatrixFourier (N : ℕ) (F : Arr2) (pw : ℕ × ℕ) : Py (Matrix (Fin N) (Fin N) ℂ) := do
  let P := pw.1
  let rows ← pyFinM fun r : Fin N => pyFinM fun c : Fin N => do
    let g0 : ℤ := (F.nx / 2 : ℕ) + (((r : ℕ) % P : ℕ) - ((c : ℕ) % P : ℕ) : ℤ)
    let g1 : ℤ := (F.ny / 2 : ℕ) + (((r : ℕ) / P : ℕ) - ((c : ℕ) / P : ℕ) : ℤ)
    let i ← npIndex F.nx g0
    let j ← npIndex F.ny g1
    return F.val i j
  return Matrix.of rows

/-- `convolution_matrix(structure, harmonics)`, `tools.py:33-35`; an empty array makes `fft2` raise
`ValueError`. -/
noncomputable def convolutionMatrix (N : ℕ) (a : Arr2) (pw : ℕ × ℕ) :
    Py (Matrix (Fin N) (Fin N) ℂ) := do
  pyCheck (a.nx ≠ 0 ∧ a.ny ≠ 0) .value
  let s := fftshift (fft2 a)
  convolutionMatrixFourier N ⟨s.nx, s.ny, fun i j => s.val i j / (a.nx * a.ny)⟩ pw

end Khepri
