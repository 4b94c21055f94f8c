import Verif.Model.Crystal
import Mathlib.LinearAlgebra.CrossProduct

/-!
# Fields in a volume and the Poynting vector: `khepri/crystal.py`, `khepri/misc.py`
-/

namespace Khepri

namespace Crystal

variable {N : ℕ}

/-- `fields_coords_xy(x, y, z, incident_fields)` on a mesh, `crystal.py:297-333`: the Fourier components are computed
once for the plane, and summed at every point of the mesh.  Simplified: the two meshes are a list of points, so the
assertion on their shapes holds. -/
noncomputable def fieldsXY (c : Crystal N) (pts : List (ℝ × ℝ)) (z : ℝ) (inc : Option (Vec2 N × Vec2 N))
    (kp : Option (ℂ × ℂ)) : Py (List Point6) := do
  pyCheck (c.stacked.isSome = true) .assertion
  let src ← attr c.source
  let (E, H) ← orDefault inc c.sourceFields
  let (kx, ky, _) ← c.expansion.kVectors (kp.getD src.kp) src.wavelength 1
  let f ← c.fourierFields z E H
  let k0 : ℝ := 2 * Real.pi / src.wavelength
  let r := fun (s : Fin N → ℂ) (q : ℝ × ℝ) => idft s (fun i => k0 * kx i) (fun i => k0 * ky i) q.1 q.2
  return pts.map fun q => ⟨r f.sx q, r f.sy q, r f.sz q, r f.ux q, r f.uy q, r f.uz q⟩

/-- `fields_volume(x, y, z, incident_fields)`, `crystal.py:335-343`: the default incident fields are taken before the
loop; with no depth at all `fields` has one axis only and `fields[:, 0]` is out of range. -/
noncomputable def fieldsVolume (c : Crystal N) (pts : List (ℝ × ℝ)) (zs : List ℝ) (inc : Option (Vec2 N × Vec2 N)) :
    Py (List (List Point6)) := do
  let EH ← orDefault inc c.sourceFields
  let fields ← zs.mapM fun z => c.fieldsXY pts z (some EH) none
  pyCheck (fields ≠ []) .index
  return fields

/-- The electric field of a point as a vector (`np.split(fields, 2)[0]`, `crystal.py:333`). -/
def Point6.E (P : Point6) : Fin 3 → ℂ := ![P.ex, P.ey, P.ez]

/-- The magnetic field of a point as a vector (`np.split(fields, 2)[1]`, `crystal.py:333`). -/
def Point6.H (P : Point6) : Fin 3 → ℂ := ![P.hx, P.hy, P.hz]

end Crystal

/-- `poynting_vector(E, H)` at one point, `misc.py:53-55`: `np.cross(E, np.conj(H))`. -/
def poyntingVector (E H : Fin 3 → ℂ) : Fin 3 → ℂ := crossProduct E (star H)

end Khepri
