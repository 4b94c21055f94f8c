import Verif.Model.Fourier
import Verif.Model.Draw
import Mathlib.Analysis.Normed.Algebra.MatrixExponential
import Mathlib.Data.Matrix.Block

/-!
# The T-matrix formulation: `khepri/tmat`

A `4 ng × 4 ng` array is a matrix over `(g ⊕ g) ⊕ (g ⊕ g)`: `g` numbers the `ng` orders and the four summands
are the slices `[0:ng]`, `[ng:2ng]`, `[2ng:3ng]`, `[3ng:4ng]`.  With the strides given to `as_strided`, the view
`Uv[a, b]` of the code is block `(a, b)`.  The first two slices are the slice `p` of the code and the last two the
slice `m`.  Single precision (`dtype=np.float32`, the default of `CartesianLattice`) is idealised like double
precision.
-/

namespace Khepri

open Matrix Complex

/-- `mu0c = mu0 * c`, `constants.py:3-5`. -/
noncomputable def mu0c : ℝ := 4 * Real.pi * (1 / 10 ^ 7) * 299792458

/-! ### S-matrices: `tmat/matrices.py` -/

section Smat
variable {n : Type} [Fintype n] [DecidableEq n]

/-- `matrix_s(T)`, `tmat/matrices.py:168-177`. -/
noncomputable def matrixS (T : Matrix (n ⊕ n) (n ⊕ n) ℂ) : Py (Matrix (n ⊕ n) (n ⊕ n) ℂ) := do
  let Spp ← npInv T.toBlocks₁₁
  let Spm := -Spp * T.toBlocks₁₂
  let Smp := T.toBlocks₂₁ * Spp
  let Smm := T.toBlocks₂₂ + T.toBlocks₂₁ * Spm
  return fromBlocks Spp Spm Smp Smm

/-- `multS(S1, S2)`, `tmat/matrices.py:194-212`; `scipy.linalg.solve` raises `LinAlgError` for a singular
matrix. -/
noncomputable def multS (S1 S2 : Matrix (n ⊕ n) (n ⊕ n) ℂ) : Py (Matrix (n ⊕ n) (n ⊕ n) ℂ) := do
  let I := 1 - S1.toBlocks₁₂ * S2.toBlocks₂₁
  let G1 ← npSolve I S1.toBlocks₁₁
  let Spp := S2.toBlocks₁₁ * G1
  let Smp := S1.toBlocks₂₁ + S1.toBlocks₂₂ * S2.toBlocks₂₁ * G1
  let G2 ← npSolve I S1.toBlocks₁₂
  let Spm := S2.toBlocks₁₂ + S2.toBlocks₁₁ * G2 * S2.toBlocks₂₂
  let Smm := S1.toBlocks₂₂ * (1 + S2.toBlocks₂₁ * G2) * S2.toBlocks₂₂
  return fromBlocks Spp Spm Smp Smm

/-- The loop `S = multS(S, S)` of `scattering_matrix`, `tmat/scattering.py:46-49`, run `k` times. -/
noncomputable def doubling : ℕ → Matrix (n ⊕ n) (n ⊕ n) ℂ → Py (Matrix (n ⊕ n) (n ⊕ n) ℂ)
  | 0, S => .ok S
  | k + 1, S => do
    let S' ← multS S S
    doubling k S'

/-- `scattering_identity(pw)`, `tmat/scattering.py:123-129`. -/
def tmatIdentity (n : Type) [DecidableEq n] : Matrix (n ⊕ n) (n ⊕ n) ℂ := fromBlocks 0 1 1 0

end Smat

/-! ### Grids: `tmat/tools.py` -/

/-- `grid_center(shape)`, `tmat/tools.py:16-23`. -/
def gridCenter (shape : ℕ × ℕ) : Py (ℕ × ℕ) := do
  pyCheck (shape.1 % 2 = shape.2 % 2) .assertion
  return if shape.1 % 2 = 0 then (shape.1 / 2, shape.2 / 2) else ((shape.1 - 1) / 2, (shape.2 - 1) / 2)

/-- `grid_size(pw)`, `tmat/tools.py:26-35`. -/
def gridSize (pw : ℕ × ℕ) : Py ((ℕ × ℕ) × (ℕ × ℕ)) := do
  pyCheck (pw.1 % 2 = pw.2 % 2) .assertion
  return if pw.1 % 2 = 0 then ((pw.1 / 2, pw.2 / 2), (4 * (pw.1 / 2), 4 * (pw.2 / 2)))
    else (((pw.1 - 1) / 2, (pw.2 - 1) / 2), (4 * ((pw.1 - 1) / 2) + 1, 4 * ((pw.2 - 1) / 2) + 1))

/-- `coords_from_index(p, n, g)`, `tmat/tools.py:71-73` (`np.unravel_index` in Fortran order; `g` in range). -/
def coordsFromIndex (p n : ℕ × ℕ) (g : ℕ) : ℤ × ℤ :=
  (((g % p.1 : ℕ) : ℤ) - n.1, ((g / p.1 : ℕ) : ℤ) - n.2)

/-- The length of `l[start:stop]` for a sequence of length `len` (a negative `stop` counts from the end). -/
def pySliceLen (len start : ℕ) (stop : ℤ) : ℕ :=
  ((if stop < 0 then stop + len else min stop len) - start).toNat

/-- `a.T.flatten()` (and `a.T.flat`) for an array `a` of shape `s`. -/
def flatT {α : Type} (s : ℕ × ℕ) (a : ℕ → ℕ → α) (k : Fin (s.1 * s.2)) : α := a (k % s.1) (k / s.1)

/-- `norm(u, axis=0)` of `u = (kx + gx, ky + gy)`, one element. -/
noncomputable def uNorm (u : ℂ × ℂ) : ℝ := Real.sqrt (‖u.1‖ ^ 2 + ‖u.2‖ ^ 2)

/-- `compute_kz(gx, gy, epsilon, wavelength, kp)`, `tmat/tools.py:38-46`, one element (`wavelength ≠ 0`).
`np.isclose(x, 0.0)` is `|x| ≤ 1e-8`. -/
noncomputable def computeKz (gx gy : ℝ) (eps : ℂ) (wl : ℝ) (kp : ℂ × ℂ) : ℂ :=
  let unorm := uNorm (kp.1 + gx, kp.2 + gy)
  let kz := csqrt (eps * (2 * Real.pi / wl : ℝ) ^ 2 - (unorm : ℂ) ^ 2)
  open Classical in
  if kz.im < 0 ∨ (|kz.im| ≤ 1 / 10 ^ 8 ∧ kz.re < 0) then -kz else kz

/-- The in-plane direction used by `compute_eta` and `compute_mu`, `tmat/tools.py:49-55` and `61-67`, one
element; `np.finfo(float).eps` is `2⁻⁵²`. -/
noncomputable def planarDir (u : ℂ × ℂ) : ℂ × ℂ :=
  if uNorm u ^ 2 < 1 / 2 ^ 52 then (1, 0) else (u.1 / uNorm u, u.2 / uNorm u)

/-- `compute_eta(gx, gy, kp)`, `tmat/tools.py:48-57`, one element. -/
noncomputable def computeEta (gx gy : ℝ) (kp : ℂ × ℂ) : ℂ × ℂ :=
  let u := planarDir (kp.1 + gx, kp.2 + gy)
  (u.2, -u.1)

/-- `compute_mu(gx, gy, kzg, epsilon, wavelength, kp)`, `tmat/tools.py:60-69`, one element (`wavelength` and
`epsilon` not 0). -/
noncomputable def computeMu (gx gy : ℝ) (kz eps : ℂ) (wl : ℝ) (kp : ℂ × ℂ) : ℂ × ℂ :=
  let u := planarDir (kp.1 + gx, kp.2 + gy)
  let c := kz / (csqrt eps * (2 * Real.pi : ℝ) / wl)
  (c * u.1, c * u.2)

/-- `epsilon_g(q, islands_data, eps_host, inverse)`, `tmat/tools.py:75-84`; `islands_data` is a list of
`(transform values, epsilon)`.  `1 / 0` raises. -/
noncomputable def epsilonG (q : ℕ × ℕ) (data : List ((Fin q.1 → Fin q.2 → ℂ) × ℂ)) (host : ℂ) (inverse : Bool) :
    Py (Fin q.1 → Fin q.2 → ℂ) := do
  let trsf : ℂ → ℂ := fun x => if inverse then 1 / x else x
  pyCheck (inverse = true → host ≠ 0 ∧ ∀ d ∈ data, d.2 ≠ 0) .nonFinite
  pyCheck (0 < q.1 ∧ 0 < q.2) .index
  let start : Fin q.1 → Fin q.2 → ℂ := fun i j => if (i : ℕ) = q.1 / 2 ∧ (j : ℕ) = q.2 / 2 then trsf host else 0
  return data.foldl (fun acc d i j => acc i j + (trsf d.2 - trsf host) * d.1 i j) start

/-- `incident(pw, E0, p_pol, s_pol)`, `tmat/tools.py:86-98`. -/
def tmatIncident (pw : ℕ × ℕ) (E0 p s : ℂ) :
    Py ((Fin (pw.1 * pw.2) ⊕ Fin (pw.1 * pw.2)) ⊕ (Fin (pw.1 * pw.2) ⊕ Fin (pw.1 * pw.2)) → ℂ) := do
  let g0 := pw.1 / 2 + pw.1 * (pw.2 / 2)
  pyCheck (g0 < pw.1 * pw.2) .index
  return Sum.elim (Sum.elim (fun i => if (i : ℕ) = g0 then s * E0 else 0) (fun i => if (i : ℕ) = g0 then p * E0 else 0))
    (Sum.elim (fun _ => 0) (fun _ => 0))

/-! ### `matrix_u`, `matrix_v`, `matrix_a` -/

/-- A `4 ng × 4 ng` matrix whose 16 blocks are diagonal (`np.fill_diagonal` on each view). -/
def diagBlocks {g : Type} [DecidableEq g] (b : g → Matrix (Fin 4) (Fin 4) ℂ) :
    Matrix ((g ⊕ g) ⊕ (g ⊕ g)) ((g ⊕ g) ⊕ (g ⊕ g)) ℂ :=
  fromBlocks
    (fromBlocks (diagonal fun i => b i 0 0) (diagonal fun i => b i 0 1) (diagonal fun i => b i 1 0) (diagonal fun i => b i 1 1))
    (fromBlocks (diagonal fun i => b i 0 2) (diagonal fun i => b i 0 3) (diagonal fun i => b i 1 2) (diagonal fun i => b i 1 3))
    (fromBlocks (diagonal fun i => b i 2 0) (diagonal fun i => b i 2 1) (diagonal fun i => b i 3 0) (diagonal fun i => b i 3 1))
    (fromBlocks (diagonal fun i => b i 2 2) (diagonal fun i => b i 2 3) (diagonal fun i => b i 3 2) (diagonal fun i => b i 3 3))

/-- The index of the rows and columns of the matrices of a grid of shape `s`. -/
abbrev TIdx (s : ℕ × ℕ) := (Fin (s.1 * s.2) ⊕ Fin (s.1 * s.2)) ⊕ (Fin (s.1 * s.2) ⊕ Fin (s.1 * s.2))

/-- `matrix_u(kz, eta, mu, permittivity, wavelength)`, `tmat/matrices.py:9-41`, for arrays of shape `s`
(`wavelength ≠ 0`). -/
noncomputable def matrixU (s : ℕ × ℕ) (kz : ℕ → ℕ → ℂ) (eta mu : ℕ → ℕ → ℂ × ℂ) (eps : ℂ) (wl : ℝ) :
    Py (Matrix (TIdx s) (TIdx s) ℂ) := do
  pyCheck (csqrt eps ≠ 0) .nonFinite
  let hU : ℂ := mu0c / csqrt eps
  let c1 : ℂ := csqrt eps * Real.pi / wl
  pyCheck (∀ k, flatT s kz k ≠ 0) .nonFinite
  return diagBlocks fun k =>
    let dg := c1 / flatT s kz k
    let mugx := dg * (flatT s mu k).1
    let mugy := dg * (flatT s mu k).2
    let etagx := dg * (flatT s eta k).1
    let etagy := dg * (flatT s eta k).2
    !![mugy, -mugx, -hU * etagy, hU * etagx;
       etagy, -etagx, hU * mugy, -hU * mugx;
       mugy, -mugx, hU * etagy, -hU * etagx;
       -etagy, etagx, hU * mugy, -hU * mugx]

/-- `np.sqrt` of a number: `nan` for a negative `float`. -/
noncomputable def npSqrt : PyNum → Py ℂ
  | .float r => if r < 0 then .error .nonFinite else .ok (csqrt r)
  | .complex z => .ok (csqrt z)

/-- `matrix_v(eta, mu, epsilon)`, `tmat/matrices.py:43-74`, for arrays of shape `s`. -/
noncomputable def matrixV (s : ℕ × ℕ) (eta mu : ℕ → ℕ → ℂ × ℂ) (eps : PyNum) : Py (Matrix (TIdx s) (TIdx s) ℂ) := do
  let root ← npSqrt eps
  let hV : ℂ := root / mu0c
  return diagBlocks fun k =>
    let mugx := (flatT s mu k).1
    let mugy := (flatT s mu k).2
    let etagx := (flatT s eta k).1
    let etagy := (flatT s eta k).2
    !![etagx, -mugx, etagx, mugx;
       etagy, -mugy, etagy, mugy;
       hV * mugx, hV * etagx, -hV * mugx, hV * etagx;
       hV * mugy, hV * etagy, -hV * mugy, hV * etagy]

/-- The values `eps_g[i1, i2]`, `epsinv_g[i1, i2]` read by `matrix_a` for every pair of orders,
`tmat/matrices.py:152-160`. -/
def readTables (s q : ℕ × ℕ) (indices : List (ℤ × ℤ)) (epsG epsinvG : Fin q.1 → Fin q.2 → ℂ) :
    Py (Fin (s.1 * s.2) → Fin (s.1 * s.2) → ℂ × ℂ) :=
  pyFinM fun i => pyFinM fun j => do
    let mj ← pyGet indices j
    let mi ← pyGet indices i
    let i1 ← npIndex q.1 (mi.1 - mj.1 + 2 * (s.1 / 2 : ℕ))
    let i2 ← npIndex q.2 (mi.2 - mj.2 + 2 * (s.2 / 2 : ℕ))
    return (epsG i1 i2, epsinvG i1 i2)

/-- `matrix_a(indices, gx, gy, eps_g, epsinv_g, wavelength, kx, ky)`, `tmat/matrices.py:124-166`, for `gx`, `gy`
of shape `s` and tables of shape `q`. -/
noncomputable def matrixA (s q : ℕ × ℕ) (indices : List (ℤ × ℤ)) (gx gy : ℕ → ℕ → ℝ)
    (epsG epsinvG : Fin q.1 → Fin q.2 → ℂ) (wl : ℝ) (kp : ℂ × ℂ) : Py (Matrix (TIdx s) (TIdx s) ℂ) := do
  pyCheck (wl ≠ 0) .nonFinite
  let c1 : ℂ := (2 * Real.pi / wl : ℝ)
  let ieo : ℂ := I / mu0c * c1
  let iseo : ℂ := I * mu0c / c1
  let imo : ℂ := I * mu0c * c1
  let ismo : ℂ := I / mu0c / c1
  let ux : Fin (s.1 * s.2) → ℂ := fun k => kp.1 + flatT s gx k
  let uy : Fin (s.1 * s.2) → ℂ := fun k => kp.2 + flatT s gy k
  let tab ← readTables s q indices epsG epsinvG
  let e : Matrix (Fin (s.1 * s.2)) (Fin (s.1 * s.2)) ℂ := of fun i j => (tab i j).1
  let ei : Matrix (Fin (s.1 * s.2)) (Fin (s.1 * s.2)) ℂ := of fun i j => (tab i j).2
  let A02 := of fun i j => iseo * ux i * ei i j * uy j
  let A03 := diagonal (fun _ => imo) - of fun i j => iseo * ux i * ei i j * ux j
  let A12 := diagonal (fun _ => -imo) + of fun i j => iseo * uy i * ei i j * uy j
  let A13 := -of fun i j => iseo * uy i * ei i j * ux j
  let A20 := diagonal fun k => -ismo * (ux k * uy k)
  let A21 := (diagonal fun k => ismo * ux k ^ 2) - ieo • e
  let A30 := (diagonal fun k => -ismo * uy k ^ 2) + ieo • e
  let A31 := diagonal fun k => ismo * (ux k * uy k)
  return fromBlocks 0 (fromBlocks A02 A03 A12 A13) (fromBlocks A20 A21 A30 A31) 0

/-- One entry of a 2-D array of shape `s`, indexed by integers as in `matrix_a_old`. -/
def readGrid {α : Type} (s : ℕ × ℕ) (a : ℕ → ℕ → α) (i j : ℤ) : Py α := do
  let i' ← npIndex s.1 i
  let j' ← npIndex s.2 j
  return a i' j'

/-- The body of the double loop of `matrix_a_old`, `tmat/matrices.py:89-120`, for one pair of orders: the sixteen
entries `A[a*ng + g_i, b*ng + g_j]` (numba does not check indices; the model does). -/
noncomputable def matrixAOldEntry (s q : ℕ × ℕ) (indices : List (ℤ × ℤ)) (gx gy : ℕ → ℕ → ℝ)
    (epsG epsinvG : Fin q.1 → Fin q.2 → ℂ) (wl : ℝ) (kp : ℂ × ℂ) (gi gj : ℕ) : Py (Matrix (Fin 4) (Fin 4) ℂ) := do
  let c1 : ℂ := (2 * Real.pi / wl : ℝ)
  let nx := s.1 / 2
  let ny := s.2 / 2
  let ieo : ℂ := I / mu0c * c1
  let iseo : ℂ := I * mu0c / c1
  let imo : ℂ := I * mu0c * c1
  let ismo : ℂ := I / mu0c / c1
  let mj ← pyGet indices gj
  let gxj ← readGrid s gx (mj.1 + nx) (mj.2 + ny)
  let gyj ← readGrid s gy (mj.1 + nx) (mj.2 + ny)
  let uxj := kp.1 + gxj
  let uyj := kp.2 + gyj
  let mi ← pyGet indices gi
  let gxi ← readGrid s gx (mi.1 + nx) (mi.2 + ny)
  let gyi ← readGrid s gy (mi.1 + nx) (mi.2 + ny)
  let uxi := kp.1 + gxi
  let uyi := kp.2 + gyi
  let i1 ← npIndex q.1 (mi.1 - mj.1 + 2 * (nx : ℕ))
  let i2 ← npIndex q.2 (mi.2 - mj.2 + 2 * (ny : ℕ))
  let epsg := epsG i1 i2
  let epsinvg := epsinvG i1 i2
  let d : ℂ → ℂ := fun x => if gi = gj then x else 0
  return !![0, 0, iseo * uxi * epsinvg * uyj, d imo - iseo * uxi * epsinvg * uxj;
            0, 0, d (-imo) + iseo * uyi * epsinvg * uyj, -iseo * uyi * epsinvg * uxj;
            d (-ismo * uxi * uyj), d (ismo * uxi * uxj) - ieo * epsg, 0, 0;
            d (-ismo * uyi * uyj) + ieo * epsg, d (ismo * uyi * uxj), 0, 0]

/-- The slice (0 to 3) a row or column belongs to, and its order. -/
def TIdx.split {s : ℕ × ℕ} : TIdx s → Fin 4 × Fin (s.1 * s.2)
  | .inl (.inl k) => (0, k)
  | .inl (.inr k) => (1, k)
  | .inr (.inl k) => (2, k)
  | .inr (.inr k) => (3, k)

/-- `matrix_a_old(indices, gx, gy, eps_g, epsinv_g, wavelength, kx, ky)`, `tmat/matrices.py:77-121`. -/
noncomputable def matrixAOld (s q : ℕ × ℕ) (indices : List (ℤ × ℤ)) (gx gy : ℕ → ℕ → ℝ)
    (epsG epsinvG : Fin q.1 → Fin q.2 → ℂ) (wl : ℝ) (kp : ℂ × ℂ) : Py (Matrix (TIdx s) (TIdx s) ℂ) := do
  pyCheck (wl ≠ 0) .nonFinite
  let entries ← pyFinM fun gj : Fin (s.1 * s.2) => pyFinM fun gi : Fin (s.1 * s.2) =>
    matrixAOldEntry s q indices gx gy epsG epsinvG wl kp gi gj
  return of fun r c => entries c.split.2 r.split.2 r.split.1 c.split.1

/-! ### `CartesianLattice`: `tmat/lattice.py` -/

/-- A `CartesianLattice` object, `tmat/lattice.py:40-58`; `Gx`, `Gy` are arrays of shape `q`. -/
structure TLattice where
  pw : ℕ × ℕ
  q : ℕ × ℕ
  b : R2 × R2
  area : ℝ
  epsI : PyNum
  epsE : PyNum
  Gx : ℕ → ℕ → ℝ
  Gy : ℕ → ℕ → ℝ

namespace TLattice

/-- `CartesianLattice(pw, a1, a2, eps_incid, eps_emerg)`, `tmat/lattice.py:41-58`, with `gvectors`,
`tmat/lattice.py:32-38`. -/
noncomputable def make (pw : ℕ × ℕ) (a1 a2 : R2) (epsI epsE : PyNum) : Py TLattice := do
  let b ← reciproc a1 a2
  let (_, q) ← gridSize pw
  let c ← gridCenter q
  return { pw := pw, q := q, b := b, area := unitCellArea a1 a2, epsI := epsI, epsE := epsE,
           Gx := fun i j => b.1.1 * ((i : ℝ) - c.1) + b.2.1 * ((j : ℝ) - c.2),
           Gy := fun i j => b.1.2 * ((i : ℝ) - c.1) + b.2.2 * ((j : ℝ) - c.2) }

/-- `nx`, `tmat/lattice.py:60-62`. -/
def nx (l : TLattice) : ℕ := if l.q.1 % 2 = 0 then l.q.1 / 4 else (l.q.1 - 1) / 4

/-- `ny`, `tmat/lattice.py:64-66`. -/
def ny (l : TLattice) : ℕ := if l.q.2 % 2 = 0 then l.q.2 / 4 else (l.q.2 - 1) / 4

/-- The shape of `gx` and `gy`: the slice `[nx:q[0]-nx, ny:q[0]-ny]`, `tmat/lattice.py:68-74` and `80-86`
(`q[0]` on both axes). -/
def shape (l : TLattice) : ℕ × ℕ :=
  (pySliceLen l.q.1 l.nx ((l.q.1 : ℤ) - l.nx), pySliceLen l.q.2 l.ny ((l.q.1 : ℤ) - l.ny))

/-- `gx[i, j]`, `tmat/lattice.py:68-74`. -/
def gx (l : TLattice) (i j : ℕ) : ℝ := l.Gx (l.nx + i) (l.ny + j)

/-- `gy[i, j]`, `tmat/lattice.py:80-86`. -/
def gy (l : TLattice) (i j : ℕ) : ℝ := l.Gy (l.nx + i) (l.ny + j)

/-- `eta(wavelength, kp)`, `tmat/lattice.py:100-104`. -/
noncomputable def eta (l : TLattice) (kp : ℂ × ℂ) (i j : ℕ) : ℂ × ℂ := computeEta (l.gx i j) (l.gy i j) kp

/-- `kzi` and `kze`, `tmat/lattice.py:113-123`, for the permittivity `eps`. -/
noncomputable def kz (l : TLattice) (eps : PyNum) (wl : ℝ) (kp : ℂ × ℂ) (i j : ℕ) : ℂ :=
  computeKz (l.gx i j) (l.gy i j) eps.val wl kp

/-- `mugi` and `muge`, `tmat/lattice.py:125-129`, for the permittivity `eps`. -/
noncomputable def mu (l : TLattice) (eps : PyNum) (wl : ℝ) (kp : ℂ × ℂ) (i j : ℕ) : ℂ × ℂ :=
  computeMu (l.gx i j) (l.gy i j) (l.kz eps wl kp i j) eps.val wl kp

/-- `U(wavelength, kp)`, `tmat/lattice.py:131-139`. -/
noncomputable def U (l : TLattice) (wl : ℝ) (kp : ℂ × ℂ) : Py (Matrix (TIdx l.shape) (TIdx l.shape) ℂ) := do
  pyCheck (wl ≠ 0) .nonFinite
  matrixU l.shape (l.kz l.epsI wl kp) (l.eta kp) (l.mu l.epsI wl kp) l.epsI.val wl

/-- `Vi(wavelength, kp)` and `Ve(wavelength, kp)`, `tmat/lattice.py:141-159`, for the permittivity `eps`;
`compute_mu` divides by `sqrt(eps)`. -/
noncomputable def V (l : TLattice) (eps : PyNum) (wl : ℝ) (kp : ℂ × ℂ) :
    Py (Matrix (TIdx l.shape) (TIdx l.shape) ℂ) := do
  pyCheck (wl ≠ 0 ∧ csqrt eps.val ≠ 0) .nonFinite
  matrixV l.shape (l.eta kp) (l.mu eps wl kp) eps

end TLattice

/-! ### `tmat/scattering.py` -/

/-- Island types of the T-matrix formulation: `"uniform"` (`transform_uniform`, `fourier.py:61-62`) or a shape
(`transform_pixmap` is not modelled). -/
inductive TShape
  | uniform
  | shape (s : Shape)

/-- `transform(shape, params, lattice.Gx, lattice.Gy, lattice.area)`. -/
noncomputable def TLattice.transform (jv1 : ℝ → ℝ) (l : TLattice) : TShape → Py (Fin l.q.1 → Fin l.q.2 → ℂ)
  | .uniform => .ok fun _ _ => 0
  | .shape s => pyFinM fun i => pyFinM fun j => transformShape jv1 s (l.Gx i j, l.Gy i j) l.area

/-- The transfer matrix of one slice in `scattering_matrix_islands(pw, lattice, islands_description, eps_host,
wavelength, kp, depth, slicing_pow)`, `tmat/scattering.py:55-73`, with `pw` that of the lattice.
(`scattering_matrix`, `tmat/scattering.py:25-44`, has the same statements for one island.) -/
noncomputable def sliceTransfer (jv1 : ℝ → ℝ) (l : TLattice) (islands : List (TShape × ℂ)) (host : ℂ) (wl : ℝ)
    (kp : ℂ × ℂ) (depth : ℝ) (slicing : ℕ) : Py (Matrix (TIdx l.shape) (TIdx l.shape) ℂ) := do
  let data ← islands.mapM fun isl => do
    let t ← l.transform jv1 isl.1
    return (t, isl.2)
  let epsg ← epsilonG l.q data host false
  let epsinvg ← epsilonG l.q data host true
  let U ← l.U wl kp
  let Vi ← l.V l.epsI wl kp
  let indices := (List.range (l.pw.1 * l.pw.2)).map (coordsFromIndex l.pw (l.shape.1 / 2, l.shape.2 / 2))
  let A ← matrixA l.shape l.q indices l.gx l.gy epsg epsinvg wl kp
  return U * NormedSpace.exp (-(((depth / 2 ^ slicing : ℝ) : ℂ) • A)) * Vi

/-- `scattering_matrix_islands`, `tmat/scattering.py:54-82`. -/
noncomputable def tmatScattering (jv1 : ℝ → ℝ) (l : TLattice) (islands : List (TShape × ℂ)) (host : ℂ) (wl : ℝ)
    (kp : ℂ × ℂ) (depth : ℝ) (slicing : ℕ) : Py (Matrix (TIdx l.shape) (TIdx l.shape) ℂ) := do
  let T ← sliceTransfer jv1 l islands host wl kp depth slicing
  let S ← matrixS T
  doubling slicing S

/-- `scattering_interface(lattice, wavelength, kp)`, `tmat/scattering.py:130-134`. -/
noncomputable def tmatInterface (l : TLattice) (wl : ℝ) (kp : ℂ × ℂ) :
    Py (Matrix (TIdx l.shape) (TIdx l.shape) ℂ) := do
  let U ← l.U wl kp
  let Ve ← l.V l.epsE wl kp
  matrixS (U * Ve)

/-! ### Fluxes: `tmat/tools.py` -/

/-- `sys.float_info.epsilon`. -/
noncomputable def floatEps : ℝ := 1 / 2 ^ 52

/-- `compute_currents(P_in, P_sca, lattice, wavelength, kp_inc)`, `tmat/tools.py:100-120`
(`wavelength ≠ 0`): `j1plus`, `j1minus`, `j3plus`. -/
noncomputable def computeCurrents (l : TLattice) (wl : ℝ) (pin psca : TIdx l.shape → ℂ) (kp : ℂ × ℂ) :
    (Fin (l.shape.1 * l.shape.2) → ℂ) × (Fin (l.shape.1 * l.shape.2) → ℂ) × (Fin (l.shape.1 * l.shape.2) → ℂ) :=
  let q : ℂ := (l.area / (2 * mu0c * (2 * Real.pi) / wl) : ℝ)
  let kgzI := flatT l.shape (l.kz l.epsI wl kp)
  let kgzE := flatT l.shape (l.kz l.epsE wl kp)
  open Classical in
  (fun k => if |(kgzI k).im| ≤ floatEps then
      q * kgzI k * ((‖pin (.inl (.inl k))‖ ^ 2 + ‖pin (.inl (.inr k))‖ ^ 2 : ℝ) : ℂ) else 0,
   fun k => if |(kgzI k).im| ≤ floatEps then
      q * kgzI k * ((‖psca (.inr (.inl k))‖ ^ 2 + ‖psca (.inr (.inr k))‖ ^ 2 : ℝ) : ℂ) else 0,
   fun k => if |l.epsE.val.im| < floatEps ∧ |(kgzE k).im| < floatEps then
      q * kgzE k * ((‖psca (.inl (.inl k))‖ ^ 2 + ‖psca (.inl (.inr k))‖ ^ 2 : ℝ) : ℂ) else 0)

/-- `compute_fluxes(lattice, wavelength, pin, pout, kp)`, `tmat/tools.py:122-143`: `R, T, A`.  The argument `kp`
is not passed on: the currents are those for `kp_inc=(0., 0.)`. -/
noncomputable def computeFluxes (l : TLattice) (wl : ℝ) (pin pout : TIdx l.shape → ℂ) (_kp : ℂ × ℂ) :
    Py (ℝ × ℝ × ℝ) := do
  pyCheck (wl ≠ 0) .nonFinite
  let (j1p, j1m, j3p) := computeCurrents l wl pin pout (0, 0)
  pyCheck (∑ k, j1p k ≠ 0) .nonFinite
  let R := ‖(∑ k, j1m k) / ∑ k, j1p k‖
  let T := ‖(∑ k, j3p k) / ∑ k, j1p k‖
  return (R, T, 1 - R - T)

end Khepri
