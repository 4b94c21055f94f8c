import Verif.Model.Windows

/-!
# `fourier2real_fft` of `khepri/fields.py`, `fourier2direct2` of `khepri/tmat/fields.py` and `transform_pixmap` of
`khepri/fourier.py`
-/

namespace Khepri

open Complex

/-- One axis of a numpy broadcast: the common size, `ValueError` when there is none. -/
def broadcastAxis (m n : ℕ) : Py ℕ :=
  if m = n then .ok m else if m = 1 then .ok n else if n = 1 then .ok m else .error .value

/-- The position read along an axis of size `n` for position `i` of a broadcast result. -/
def broadcastAt (n i : ℕ) : ℕ := if n = 1 then 0 else i

/-- `np.fft.ifftshift` (a roll by `-(n // 2)`) of an array of shape `(h, w)`, position `(u, v)`. -/
def ifftshiftAt (h w : ℕ) (a : ℕ → ℕ → ℂ) (u v : ℕ) : ℂ := a ((u + h / 2) % h) ((v + w / 2) % w)

/-- `np.fft.ifft2` of an array of shape `(h, w)`, position `(k, l)`. -/
noncomputable def ifft2At (h w : ℕ) (a : ℕ → ℕ → ℂ) (k l : ℕ) : ℂ :=
  (∑ u ∈ Finset.range h, ∑ v ∈ Finset.range w, a u v * exp (2 * Real.pi * I * (k * u / h + l * v / w))) / (h * w)

/-- `np.pad(f, (b, c), constant_values=0)`: `b` zeros before and `c` after, along both axes; position `(i, j)`. -/
def padAt (f : Arr2) (b i j : ℕ) : ℂ :=
  if h : (b ≤ i ∧ i < b + f.nx) ∧ (b ≤ j ∧ j < b + f.ny) then f.val ⟨i - b, by omega⟩ ⟨j - b, by omega⟩ else 0

/-- `fourier2real_fft(ffield, a, target_resolution, kp)`, `fields.py:33-44`; `T` is `target_resolution[0]`
(`target_resolution[1]` is not used).  The pair given to `np.pad` is (before, after), for both axes; a negative width
raises `ValueError`, and so does `ifft2` of an array without elements. -/
noncomputable def fourier2realFft (f : Arr2) (a : ℝ) (T : ℤ) (kp : ℂ × ℂ) : Py Arr2 := do
  let b := Int.fdiv (T - f.nx) 2
  let c := Int.fdiv (T - f.ny) 2
  pyCheck (0 ≤ b ∧ 0 ≤ c) .value
  let h := b.toNat + f.nx + c.toNat
  let w := b.toNat + f.ny + c.toNat
  let t := T.toNat
  let phase := fun r l : ℕ => exp (I * (kp.1 * linspaceAt 0 a t l + kp.2 * linspaceAt 0 a t r))
  pyCheck (h ≠ 0 ∧ w ≠ 0) .value
  let F := ifft2At h w (ifftshiftAt h w (padAt f b.toNat))
  let rows ← broadcastAxis h t
  let cols ← broadcastAxis w t
  return ⟨rows, cols, fun r l => F (broadcastAt h r) (broadcastAt w l) * phase (broadcastAt t r) (broadcastAt t l)⟩

/-- A numpy array with one or two axes. -/
inductive NdArr
  | one (l : List ℂ)
  | two (a : Arr2)

/-- The elements of a two-dimensional array in C order. -/
def Arr2.elements (a : Arr2) : List ℂ :=
  (List.finRange a.nx ×ˢ List.finRange a.ny).map fun p => a.val p.1 p.2

/-- `.flatten()`, and the elements `.reshape` keeps in order. -/
def NdArr.flat : NdArr → List ℂ
  | .one l => l
  | .two a => a.elements

/-- `.T`: the array itself with one axis, the transpose with two. -/
def NdArr.T : NdArr → NdArr
  | .one l => .one l
  | .two a => .two ⟨a.ny, a.nx, fun i j => a.val j i⟩

/-- `fourier2direct2(ffield, kx, ky, a, target_resolution, extent)`, `tmat/fields.py:3-16`; `reshape` raises `ValueError`
for another number of elements (which `outer(uy, …)` has unless `uy` is as long as `ux` or there is no point). -/
noncomputable def fourier2direct2 (ffield kx ky : NdArr) (a : ℝ) (T : ℕ × ℕ) (extent : Option (ℝ × ℝ × ℝ × ℝ)) :
    Py Arr2 := do
  let (x0, x1, y0, y1) := extent.getD (0, a, 0, a)
  let ux := kx.flat
  let uy := ky.flat
  let ng := ux.length
  pyCheck (uy.length * (T.1 * T.2) = ng * (T.1 * T.2)) .value
  let f := ffield.T.flat
  pyCheck (f.length = ng) .value
  return ⟨T.1, T.2, fun i j =>
    ((f.zip (ux.zip uy)).map fun g => g.1 *
      exp (I * (g.2.1 * linspaceAt x0 x1 T.1 i + g.2.2 * linspaceAt y0 y1 T.2 j))).sum⟩

/-- `transform_pixmap(map, Gx, Gy, sigma)`, `fourier.py:65-68` (`Gx` and `Gy` are not used); `fft2` of an empty array
raises `ValueError`. -/
noncomputable def transformPixmap (map : Arr2) (sigma : ℝ) : Py Arr2 := do
  pyCheck (map.nx ≠ 0 ∧ map.ny ≠ 0) .value
  pyCheck (sigma ≠ 0) .nonFinite
  let F := fft2 map
  return ⟨F.nx, F.ny, fun i j => F.val i j / sigma⟩

end Khepri
