import Verif.Model.Layer

/-!
# Plane-wave sources and fluxes: `incident` and `poynting_fluxes` of `khepri/alternative.py`
-/

namespace Khepri

open Matrix

/-- A 3-vector of complex numbers. -/
@[ext] structure C3 where
  x : ℂ
  y : ℂ
  z : ℂ

/-- `np.linalg.norm` of a complex 3-vector. -/
noncomputable def C3.norm (v : C3) : ℝ := Real.sqrt (‖v.x‖ ^ 2 + ‖v.y‖ ^ 2 + ‖v.z‖ ^ 2)

/-- `np.cross(a, b)`. -/
def C3.cross (a b : C3) : C3 := ⟨a.y * b.z - a.z * b.y, a.z * b.x - a.x * b.z, a.x * b.y - a.y * b.x⟩

/-- Multiplication of a vector by a number. -/
def C3.smul (c : ℂ) (v : C3) : C3 := ⟨c * v.x, c * v.y, c * v.z⟩

/-- Sum of two vectors. -/
def C3.add (a b : C3) : C3 := ⟨a.x + b.x, a.y + b.y, a.z + b.z⟩

/-- `v / np.linalg.norm(v)`. -/
noncomputable def C3.unit (v : C3) : Py C3 :=
  if v.norm = 0 then .error .nonFinite else .ok (C3.smul (1 / (v.norm : ℂ)) v)

/-- The two polarisation vectors `aTE, aTM` of `incident`, `alternative.py:109-121`.  (`kbar` is only
used in the second branch.) -/
noncomputable def polarisations (k : C3) : Py (C3 × C3) := do
  let kpnorm := Real.sqrt (‖k.x‖ ^ 2 + ‖k.y‖ ^ 2)
  if |kpnorm| < 1 / 10 ^ 8 then
    return (⟨1, 0, 0⟩, ⟨0, 1, 0⟩)
  else
    let kbar ← k.unit
    let aTE ← (C3.smul (-1) (C3.cross ⟨0, 0, -1⟩ kbar)).unit
    let aTM ← (C3.cross aTE kbar).unit
    return (aTE, aTM)

/-- `np.linalg.norm((abs(te), abs(tm)))`. -/
noncomputable def polNorm (te tm : ℂ) : ℝ := Real.sqrt (‖te‖ ^ 2 + ‖tm‖ ^ 2)

/-- `te_pol * aTE + tm_pol * aTM` with the polarisation normalised, `alternative.py:103-107` and
`127`. -/
noncomputable def polVector (te tm : ℂ) (k : C3) : Py C3 := do
  if polNorm te tm = 0 then throw .nonFinite
  let (aTE, aTM) ← polarisations k
  return C3.add (C3.smul (te / polNorm te tm) aTE) (C3.smul (tm / polNorm te tm) aTM)

/-- `incident(pw, te_pol, tm_pol, k_vector)`, `alternative.py:101-128`, with `N = prod(pw)` and
`normalize=True`: only order `(N - 1) // 2` is excited. -/
noncomputable def incident (N : ℕ) (te tm : ℂ) (k : C3) : Py (Vec2 N) := do
  let p ← polVector te tm k
  pyCheck (0 < N) .index
  let delta : Fin N → ℂ := fun i => if (i : ℕ) = (N - 1) / 2 then 1 else 0
  return Sum.elim (fun i => delta i * p.x) (fun i => delta i * p.y)

/-- `poynting_fluxes(expansion, c_output, kp, wavelength, only_total=False, epsi, epse)`,
`alternative.py:235-247`: total and per-order fluxes. -/
noncomputable def poyntingFluxes {N : ℕ} (e : Expansion N) (c : Vec2 N) (kp : ℂ × ℂ) (wl : ℝ)
    (epsi epse : ℂ) : Py (ℝ × (Fin N → ℝ)) := do
  if wl = 0 then throw .nonFinite
  let k0 : ℝ := 2 * Real.pi / wl
  let kzi : ℂ := star (csqrt ((k0 : ℂ) ^ 2 * epsi - kp.1 ^ 2 - kp.2 ^ 2)) / k0
  let (kx, ky, kz) ← e.kVectors kp wl epse
  pyCheck (∀ i, kz i ≠ 0) .nonFinite
  if kzi.re = 0 then throw .nonFinite
  let sx : Fin N → ℂ := fun i => c (.inl i)
  let sy : Fin N → ℂ := fun i => c (.inr i)
  let sz : Fin N → ℂ := fun i => -(kx i * sx i + ky i * sy i) / kz i
  let t : Fin N → ℝ := fun i =>
    (kz i).re / kzi.re * (‖sx i‖ ^ 2 + ‖sy i‖ ^ 2 + ‖sz i‖ ^ 2)
  return (∑ i, t i, t)

end Khepri
