import Verif.Model.Tmat

/-!
# Remaining accessors of `CartesianLattice` and unit conversions
-/

namespace Khepri

namespace TLattice

/-- Whether `Gx[i, j]` is in the slice `gx` and `gy` are views of, `tmat/lattice.py:73-74`. -/
def InView (l : TLattice) (i j : ℕ) : Prop :=
  l.nx ≤ i ∧ i < l.nx + l.shape.1 ∧ l.ny ≤ j ∧ j < l.ny + l.shape.2

instance (l : TLattice) (i j : ℕ) : Decidable (l.InView i j) := by unfold InView; infer_instance

/-- `lattice.gx = v`, `tmat/lattice.py:76-79`, for an array `v` of the shape of `gx`. -/
def setGx (l : TLattice) (v : ℕ → ℕ → ℝ) : TLattice :=
  { l with Gx := fun i j => if l.InView i j then v (i - l.nx) (j - l.ny) else l.Gx i j }

/-- `lattice.gy = v`, `tmat/lattice.py:87-90`. -/
def setGy (l : TLattice) (v : ℕ → ℕ → ℝ) : TLattice :=
  { l with Gy := fun i j => if l.InView i j then v (i - l.nx) (j - l.ny) else l.Gy i j }

/-- `list(lattice.g_vectors())`, `tmat/lattice.py:180-184`: C order. -/
def gVectors (l : TLattice) : List R2 :=
  (List.range (l.shape.1 * l.shape.2)).map fun k => (l.gx (k / l.shape.2) (k % l.shape.2), l.gy (k / l.shape.2) (k % l.shape.2))

/-- `list(lattice.G_vectors())`, `tmat/lattice.py:185-188`. -/
def GVectors (l : TLattice) : List R2 :=
  (List.range (l.q.1 * l.q.2)).map fun k => (l.Gx (k / l.q.2) (k % l.q.2), l.Gy (k / l.q.2) (k % l.q.2))

/-- `lattice.restrict_radius_mask(radius)`, `tmat/lattice.py:212-214` (at least one order). -/
noncomputable def restrictRadiusMask (l : TLattice) (radius : ℝ) : List Bool :=
  l.gVectors.map fun g => open Classical in decide (Real.sqrt (g.1 ^ 2 + g.2 ^ 2) < radius)

/-- `lattice.kp_angle(wavelength, theta_deg, phi_deg)`, `tmat/lattice.py:107-111`. -/
noncomputable def kpAngle (l : TLattice) (wl theta phi : ℝ) : Py (ℂ × ℂ) := computeKplanar l.epsI.val wl theta phi

end TLattice

/-- A lattice with the attribute `eta_` (`None` or the array `eta_normal` stored), `tmat/lattice.py:55`. -/
structure CachedLattice where
  lattice : TLattice
  eta : Option (ℕ → ℕ → ℂ × ℂ)

/-- `lattice.eta_normal`, `tmat/lattice.py:91-98`: its value and the object afterwards (`compute_eta` is called without
`kp`, which defaults to `(0, 0)`). -/
noncomputable def CachedLattice.etaNormal (o : CachedLattice) : (ℕ → ℕ → ℂ × ℂ) × CachedLattice :=
  match o.eta with
  | some e => (e, o)
  | none =>
    let e := fun i j => computeEta (o.lattice.gx i j) (o.lattice.gy i j) (0, 0)
    (e, { o with eta := some e })

/-- `fn2ev(f, pitch)`, `constants.py:10-11`. -/
noncomputable def fn2ev (f pitch : ℝ) : Py ℝ := do
  pyCheck (pitch ≠ 0) .nonFinite
  return 66261 / 10 ^ 38 * f * 299792458 / (pitch * (1 / 10 ^ 6)) / (1602 / 10 ^ 22)

/-- `ev2fn(fev, pitch)`, `constants.py:12-13`. -/
noncomputable def ev2fn (fev pitch : ℝ) : ℝ :=
  fev / (66261 / 10 ^ 38) / 299792458 * (pitch * (1 / 10 ^ 6)) * (1602 / 10 ^ 22)

/-- `nanometers(x)`, `tmat/tools.py:12-14`. -/
noncomputable def nanometers (x : ℝ) : ℝ := x * (1 / 10 ^ 9)

end Khepri
