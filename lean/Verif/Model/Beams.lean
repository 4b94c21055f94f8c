import Verif.Model.Fourier
import Mathlib.Analysis.SpecialFunctions.Trigonometric.Basic
import Mathlib.Analysis.SpecialFunctions.Complex.Arg
import Mathlib.Analysis.SpecialFunctions.Trigonometric.Arctan
import Mathlib.LinearAlgebra.Matrix.NonsingularInverse
import Mathlib.LinearAlgebra.Matrix.Notation

/-!
# `khepri/beams.py`: beams, their rotation, Brillouin-zone grids; `CartesianLattice.bz_path`

Angles, origins and coordinates are scalars, one point at a time (numpy broadcasts over points).
-/

namespace Khepri

open Matrix

/-- `rotation_y_matrix`, `beams.py:14-18`. -/
noncomputable def rotationY (theta : ℝ) : Matrix (Fin 3) (Fin 3) ℝ :=
  !![Real.cos theta, 0, Real.sin theta; 0, 1, 0; -Real.sin theta, 0, Real.cos theta]

/-- `rotation_z_matrix`, `beams.py:20-24`. -/
noncomputable def rotationZ (phi : ℝ) : Matrix (Fin 3) (Fin 3) ℝ :=
  !![Real.cos phi, -Real.sin phi, 0; Real.sin phi, Real.cos phi, 0; 0, 0, 1]

/-- `rotation_p_matrix`, `beams.py:26-45`. -/
noncomputable def rotationP (theta phi psi : ℝ) : Matrix (Fin 3) (Fin 3) ℝ :=
  let ux := Real.cos phi * Real.sin theta
  let uy := Real.sin phi * Real.sin theta
  let uz := Real.cos theta
  let c := Real.cos psi
  let s := Real.sin psi
  !![c + ux ^ 2 * (1 - c), ux * uy * (1 - c) - uz * s, ux * uz * (1 - c) + uy * s;
    uy * ux * (1 - c) + uz * s, c + uy ^ 2 * (1 - c), uy * uz * (1 - c) - ux * s;
    uz * ux * (1 - c) - uy * s, uz * uy * (1 - c) + ux * s, c + uz ^ 2 * (1 - c)]

/-- `rotation_matrix(polar_angle, azimuthal_angle, polarization_angle)`, `beams.py:6-47`. -/
noncomputable def rotationMatrix (theta phi psi : ℝ) : Matrix (Fin 3) (Fin 3) ℝ :=
  rotationP theta phi psi * rotationZ phi * rotationY theta

/-- `np.linalg.solve(mat, v)` for a real system. -/
noncomputable def npSolveR (A : Matrix (Fin 3) (Fin 3) ℝ) (v : Fin 3 → ℝ) : Py (Fin 3 → ℝ) :=
  if A.det = 0 then .error .linAlg else .ok (A⁻¹ *ᵥ v)

/-- A beam: electric and magnetic field at `(x, y, z)`. -/
abbrev FieldFn := (Fin 3 → ℝ) → (Fin 3 → ℂ) × (Fin 3 → ℂ)

/-- `shifted_rotated_fields(field_fn, x, y, z, wavelength, origin, angles)`, `beams.py:50-105`, at the point `r`.
`field_fn` has its wavelength and parameters applied. -/
noncomputable def shiftedRotatedFields (f : FieldFn) (origin : Fin 3 → ℝ) (theta phi psi : ℝ) (r : Fin 3 → ℝ) :
    Py ((Fin 3 → ℂ) × (Fin 3 → ℂ)) := do
  let mat := rotationMatrix theta phi psi
  let rc ← npSolveR mat r
  let ro ← npSolveR mat origin
  let (e, h) := f (rc - ro)
  return (mat.map Complex.ofReal *ᵥ e, mat.map Complex.ofReal *ᵥ h)

/-- `_paraxial_gaussian_field_fn(x, y, z, wl, beam_waist, er)`, `beams.py:139-160`. -/
noncomputable def gaussianField (wl w0 er : ℝ) : FieldFn := fun r =>
  let k := 2 * Real.pi / wl
  let zr := Real.pi * w0 ^ 2 * Real.sqrt er / wl
  let wz := w0 * Real.sqrt (1 + (r 2 / zr) ^ 2)
  let rho := Real.sqrt (r 0 ^ 2 + r 1 ^ 2)
  let amp : ℝ := w0 / wz * Real.exp (-(rho ^ 2) / wz ^ 2)
  let phase : ℝ := k * r 2 + k * rho ^ 2 / 2 * r 2 / (r 2 ^ 2 + zr ^ 2) - Real.arctan (r 2 / zr)
  let ex : ℂ := amp * Complex.exp (Complex.I * phase)
  (![ex, 0, 0], ![0, ex / ↑(Real.sqrt er), 0])

/-- `scipy.special.genlaguerre(p, a)(x)` for integers `p, a ≥ 0`, by its explicit sum. -/
noncomputable def genLaguerre (p a : ℕ) (x : ℝ) : ℝ :=
  ∑ i ∈ Finset.range (p + 1), (-1) ^ i * (Nat.choose (p + a) (p - i) : ℝ) * x ^ i / (Nat.factorial i : ℝ)

/-- `_paraxial_laguerre_gaussian_field_fn(x, y, z, wl, w0, er, p, l)`, `beams.py:109-137`.  `np.arctan2(x, y)` is the
argument of `y + i x`. -/
noncomputable def laguerreField (wl w0 er : ℝ) (p : ℕ) (l : ℤ) : FieldFn := fun r =>
  let k := 2 * Real.pi / wl
  let zr := Real.pi * w0 ^ 2 * Real.sqrt er / wl
  let n : ℕ := l.natAbs + 2 * p
  let wz := w0 * Real.sqrt (1 + (r 2 / zr) ^ 2)
  let phi := Complex.arg (⟨r 1, r 0⟩ : ℂ)
  let rho := Real.sqrt (r 0 ^ 2 + r 1 ^ 2)
  let amp : ℝ := w0 / wz * (rho * Real.sqrt 2 / wz) ^ l.natAbs * Real.exp (-(rho ^ 2) / wz ^ 2) *
    genLaguerre p l.natAbs (2 * rho ^ 2 / wz ^ 2)
  let phase : ℝ := k * r 2 + k * rho ^ 2 / 2 * r 2 / (r 2 ^ 2 + zr ^ 2) - (n + 1) * Real.arctan (r 2 / zr)
  let ex : ℂ := amp * Complex.exp (-Complex.I * l * phi) * Complex.exp (Complex.I * phase)
  (![ex, 0, 0], ![0, ex / ↑(Real.sqrt er), 0])

/-- The elements of `np.arange(start, stop, step)` for a positive step. -/
noncomputable def npArange (start stop step : ℝ) : List ℝ :=
  (List.range ⌈(stop - start) / step⌉.toNat).map fun i : ℕ => start + i * step

/-- The vectors `gen_bzi_grid` uses, `beams.py:194-198`. -/
noncomputable def bziBasis (a : ℝ) : Option (R2 × R2) → Py (R2 × R2)
  | none => do
    pyCheck (a ≠ 0) .nonFinite
    return ((2 * Real.pi / a, 0), (0, 2 * Real.pi / a))
  | some b => .ok b

/-- `gen_bzi_grid(shape, a, reciproc)`, `beams.py:193-209`: rows of points (the code returns the two coordinates
stacked on a first axis). -/
noncomputable def genBziGrid (shape : ℕ × ℕ) (a : ℝ) (reciproc : Option (R2 × R2)) : Py (List (List R2)) := do
  let b ← bziBasis a reciproc
  pyCheck (shape.1 ≠ 0 ∧ shape.2 ≠ 0) .nonFinite
  let si : ℝ := 1 / shape.1
  let sj : ℝ := 1 / shape.2
  return (npArange (-0.5 + si / 2) 0.5 si).map fun i => (npArange (-0.5 + sj / 2) 0.5 sj).map fun j =>
    (b.1.1 * i + b.2.1 * j, b.1.2 * i + b.2.2 * j)

/-- `main_k_points[k]` in `bz_path`, `tmat/lattice.py:162` (`a ≠ 0`). -/
noncomputable def mainKPoint (a : ℝ) (k : String) : Py R2 :=
  if k = "G" then .ok (0, 0)
  else if k = "X" then .ok (0, 0.99 * Real.pi / a)
  else if k = "M" then .ok (0.99 * Real.pi / a, 0.99 * Real.pi / a)
  else .error .key

/-- One segment of `bz_path`, `tmat/lattice.py:173-177`. -/
noncomputable def bzSegment (a : ℝ) (k1 k2 : String) (r : ℤ) : Py (List R2) := do
  let start ← mainKPoint a k1
  let stop ← mainKPoint a k2
  return (List.range r.toNat).map fun j : ℕ =>
    (start.1 + (stop.1 - start.1) * j / r, start.2 + (stop.2 - start.2) * j / r)

/-- The resolutions `bz_path` uses for `m` segments, `tmat/lattice.py:165-168`. -/
def bzResolutions (m : ℕ) : List ℤ → List ℤ
  | [] => List.replicate m 10
  | [r] => List.replicate m r
  | res => res

/-- `CartesianLattice.bz_path(k_points, resolutions, a)`, `tmat/lattice.py:161-178`. -/
noncomputable def bzPath (ks : List String) (res : List ℤ) (a : ℝ) : Py (List R2) := do
  pyCheck (a ≠ 0) .nonFinite
  pyCheck (1 < ks.length) .assertion
  let res := bzResolutions (ks.length - 1) res
  pyCheck (res.length = ks.length - 1) .assertion
  let segs ← (List.range res.length).mapM fun i => do
    let k1 ← pyGet ks i
    let k2 ← pyGet ks (i + 1)
    let r ← pyGet res i
    bzSegment a k1 k2 r
  return segs.flatten

end Khepri
