import Verif.Model.Numpy
import Mathlib.Analysis.SpecialFunctions.Trigonometric.Basic

/-!
# `khepri/expansion.py` and the lattice helpers of `khepri/tools.py`
-/

namespace Khepri

/-- A pair of real coordinates. -/
abbrev R2 := ℝ × ℝ

/-- `compute_kplanar(eps_inc, wavelength, theta_deg, phi_deg)`, `tools.py:17-21`. -/
noncomputable def computeKplanar (eps : ℂ) (wl theta phi : ℝ) : Py (ℂ × ℂ) := do
  let ph := phi * (Real.pi / 180)
  let th := theta * (Real.pi / 180)
  if wl = 0 then throw .nonFinite
  let f : ℂ := csqrt eps * 2 * Real.pi / wl * Real.sin th
  return ((Real.cos ph : ℂ) * f, (Real.sin ph : ℂ) * f)

/-- `rotation_matrix(theta)` applied to a column, `tools.py:23-24`. -/
noncomputable def rotate2 (theta : ℝ) (v : R2) : R2 :=
  (Real.cos theta * v.1 - Real.sin theta * v.2, Real.sin theta * v.1 + Real.cos theta * v.2)

/-- `unitcellarea(a1, a2)`, `tools.py:60-62`. -/
def unitCellArea (a1 a2 : R2) : ℝ := |a1.1 * a2.2 - a1.2 * a2.1|

/-- `reciproc(a1, a2)`, `tools.py:64-69`; a degenerate cell gives `inf` in numpy. -/
noncomputable def reciproc (a1 a2 : R2) : Py (R2 × R2) := do
  let det := a1.1 * a2.2 - a1.2 * a2.1
  if det = 0 then throw .nonFinite
  let coef := 2 * Real.pi / det
  return ((a2.2 * coef, -a2.1 * coef), (-a1.2 * coef, a1.1 * coef))

/-- `np.arange(-M, M + 1)`. -/
def arangeSym (M : ℕ) : List ℤ := (List.range (2 * M + 1)).map fun i : ℕ => (i : ℤ) - M

/-- `generate_expansion_indices(pw)`, `expansion.py:4-16`: the columns of the returned `2 × prod(pw)`
array.  `np.meshgrid(m, n)` (default `indexing='xy'`) has `m` along the last axis, so in the flattened
(C order) arrays `m` varies fastest. -/
def generateExpansionIndices (pw : ℕ × ℕ) : Py (List (ℤ × ℤ)) := do
  pyCheck (pw.1 % 2 = 1) .assertion
  pyCheck (pw.2 % 2 = 1) .assertion
  let M := (pw.1 - 1) / 2
  let N := (pw.2 - 1) / 2
  return (arangeSym N).flatMap fun n => (arangeSym M).map fun m => (m, n)

/-- `kz_from_kplanar(kx, ky, k0, epsilon)`, `expansion.py:19-26`. -/
noncomputable def kzFromKplanar (kx ky : ℂ) (k0 : ℝ) (eps : ℂ) : ℂ :=
  star (csqrt ((k0 : ℂ) ^ 2 * star eps - kx ^ 2 - ky ^ 2))

/-- An `Expansion` object (`expansion.py:29-41`) with `N = prod(pw)` orders.  `tag` is the object's
identity (Python `==` on expansions is identity); `g` is what the property `g_vectors`, `expansion.py:75-84`, copies
(its parameter `mul` is always `None`). -/
structure Expansion (N : ℕ) where
  tag : ℕ
  pw : ℕ × ℕ
  hpw : pw.1 * pw.2 = N
  reciprocal : R2 × R2
  g : Fin N → R2
  sigma : ℝ

/-- `m * b1 + n * b2` (`expansion.py:37-40`: sum over axis 0 of `reciprocal[:, :, None] *
indices[:, None]`). -/
noncomputable def latticeVec (b : R2 × R2) (mn : ℤ × ℤ) : R2 :=
  (b.1.1 * mn.1 + b.2.1 * mn.2, b.1.2 * mn.1 + b.2.2 * mn.2)

/-- `Expansion(pw, lattice)`, `expansion.py:30-41`.  (`List.getD` is only used in range: the list of
indices has `prod(pw)` entries, theorem C21.) -/
noncomputable def Expansion.make (tag : ℕ) (pw : ℕ × ℕ) (lattice : R2 × R2) :
    Py (Expansion (pw.1 * pw.2)) := do
  let b ← reciproc lattice.1 lattice.2
  let idx ← generateExpansionIndices pw
  return { tag := tag, pw := pw, hpw := rfl, reciprocal := b,
           g := fun i => latticeVec b (idx.getD i (0, 0)),
           sigma := unitCellArea lattice.1 lattice.2 }

/-- `k_vectors(k_parallel, wavelength, epsilon)`, `expansion.py:43-50` and `95-97`: rows `kx, ky, kz` in
units of `k0`. -/
noncomputable def Expansion.kVectors {N : ℕ} (e : Expansion N) (kp : ℂ × ℂ) (wl : ℝ) (eps : ℂ) :
    Py ((Fin N → ℂ) × (Fin N → ℂ) × (Fin N → ℂ)) := do
  if wl = 0 then throw .nonFinite
  let k0 : ℝ := 2 * Real.pi / wl
  let kx : Fin N → ℂ := fun i => kp.1 + ((e.g i).1 : ℂ)
  let ky : Fin N → ℂ := fun i => kp.2 + ((e.g i).2 : ℂ)
  let kz : Fin N → ℂ := fun i => kzFromKplanar (kx i) (ky i) k0 eps
  return (fun i => kx i / k0, fun i => ky i / k0, fun i => kz i / k0)

/-- `rotate(angle_rad)`, `expansion.py:52-53`. -/
noncomputable def Expansion.rotate {N : ℕ} (e : Expansion N) (angle : ℝ) : Expansion N :=
  { e with g := fun i => rotate2 angle (e.g i) }

/-- What `lhs + rhs` returns: an expansion that remembers its operands (`expansion_lhs`,
`expansion_rhs`). -/
structure SumExpansion (M : ℕ) where
  exp : Expansion (M * M)
  lhs : Expansion M
  rhs : Expansion M

/-- The double loop of `__add__`, `expansion.py:61-65`: columns in the order they are filled
(`self` outer, `rhs` inner). -/
noncomputable def minkowskiColumns {M M' : ℕ} (lhs : Expansion M) (rhs : Expansion M') : List R2 :=
  (List.ofFn lhs.g).flatMap fun g2 => (List.ofFn rhs.g).map fun g1 => (g1.1 + g2.1, g1.2 + g2.2)

/-- `Expansion.__add__`, `expansion.py:55-73`.  `Expansion(pw_sum)` is built with the default lattice
(hence its `reciprocal` and `sigma`); `np.stack` of the operands' g-vectors raises `ValueError` when
the operands have different numbers of orders. -/
noncomputable def Expansion.add {M M' : ℕ} (tag : ℕ) (lhs : Expansion M) (rhs : Expansion M') :
    Py (SumExpansion M) := do
  let cols := minkowskiColumns lhs rhs
  let pwSum := (lhs.pw.1 ^ 2, lhs.pw.2 ^ 2)
  let e ← Expansion.make tag pwSum ((1, 0), (0, 1))
  if h : M' = M then
    return { exp := { tag := tag, pw := pwSum,
                      hpw := by rw [← lhs.hpw]; ring
                      reciprocal := e.reciprocal,
                      g := fun i => cols.getD i (0, 0), sigma := e.sigma },
             lhs := lhs, rhs := h ▸ rhs }
  else throw .value

/-- `g_vectors_expanded(mul)`, `expansion.py:86-92`: the g-vectors of the enlarged grid and its
shape. -/
noncomputable def Expansion.gVectorsExpanded {N : ℕ} (e : Expansion N) (mul : ℕ) :
    Py (List R2 × (ℕ × ℕ)) := do
  let f : ℕ → ℕ := fun p => if p > 1 then p * mul else 1
  let epw := (f e.pw.1, f e.pw.2)
  let idx ← generateExpansionIndices epw
  return (idx.map (latticeVec e.reciprocal), epw)

end Khepri
