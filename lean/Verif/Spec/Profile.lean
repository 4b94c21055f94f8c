import Verif.Spec.Device
import Verif.Model.Crystal
import Mathlib.Analysis.Calculus.Deriv.Basic
import Mathlib.Analysis.Complex.Basic

/-!
# Field profiles (specification): the field of a device as a function of depth
-/

namespace Khepri

open Matrix

/-- The depth at which the `j`-th layer of a stack begins. -/
noncomputable def startOf (ds : List ℝ) (j : ℕ) : ℝ := (ds.take j).sum

section
variable {n : Type} [Fintype n] [DecidableEq n]

/-- `Φ z` is a field at every depth `z` that obeys Maxwell's equations between any two depths of the same
medium: the medium before the device (`z ≤ 0`), each layer `i` of depth `ds[i]`, the medium after it.
Neighbouring media share the value of `Φ` at their interface: tangential fields are continuous. -/
structure DeviceField (k0 : ℝ) (Mr : Matrix n n ℂ × Matrix n n ℂ)
    (Ms : List (Matrix n n ℂ × Matrix n n ℂ × ℝ)) (ds : List ℝ) (Mt : Matrix n n ℂ × Matrix n n ℂ)
    (Φ : ℝ → Tang n) : Prop where
  before : ∀ z z', z ≤ z' → z' ≤ 0 → MaxwellTransfer Mr.1 Mr.2 (k0 * (z' - z)) (Φ z) (Φ z')
  inside : ∀ i M, Ms[i]? = some M → ∀ z z', startOf ds i ≤ z → z ≤ z' → z' ≤ startOf ds (i + 1) →
    MaxwellTransfer M.1 M.2.1 (k0 * (z' - z)) (Φ z) (Φ z')
  after : ∀ z z', ds.sum ≤ z → z ≤ z' → MaxwellTransfer Mt.1 Mt.2 (k0 * (z' - z)) (Φ z) (Φ z')

end

/-- The field of a device between media of permittivities `er` and `et`, lit from the left by the plane
waves `a` and from nowhere else. -/
structure DeviceSolution {N : ℕ} (kx ky : Fin N → ℝ) (er et k0 : ℝ) (Ms : List (Mat2 N × Mat2 N × ℝ))
    (ds : List ℝ) (a : Vec2 N) (Φ : ℝ → Tang (Fin N ⊕ Fin N)) : Prop where
  field : DeviceField k0
    (maxwellP (fun i => (kx i : ℂ)) (fun i => (ky i : ℂ)) ((er : ℂ) • 1),
      maxwellQ (fun i => (kx i : ℂ)) (fun i => (ky i : ℂ)) ((er : ℂ) • 1)) Ms ds
    (maxwellP (fun i => (kx i : ℂ)) (fun i => (ky i : ℂ)) ((et : ℂ) • 1),
      maxwellQ (fun i => (kx i : ℂ)) (fun i => (ky i : ℂ)) ((et : ℂ) • 1)) Φ
  incident : ∃ b, Φ 0 = outerField kx ky er ⟨a, b⟩
  outgoing : ∃ t, Φ ds.sum = outerField kx ky et ⟨t, 0⟩

/-- The transverse part of the six Fourier-space components. -/
def Fields6.transverse {N : ℕ} (f : Fields6 N) : Tang (Fin N ⊕ Fin N) :=
  ⟨Sum.elim f.sx f.sy, Sum.elim f.ux f.uy⟩

/-- No propagator used for the depth `z` exceeds the bound `1e14` above which the code replaces it. -/
def Unclamped {N : ℕ} (c : Crystal N) (z : ℝ) : Prop :=
  ∀ l idx (zr : ℝ) src L, c.locateLayer z = .ok (l, idx, (zr : EReal)) → c.source = some src → l.L = some L →
    ∀ i, ‖Complex.exp (L i * ((2 * Real.pi / src.wavelength * (l.depth - zr) : ℝ) : ℂ))‖ ≤ 10 ^ 14 ∧
      ‖Complex.exp (-(L i * ((2 * Real.pi / src.wavelength * (l.depth - zr) : ℝ) : ℂ)))‖ ≤ 10 ^ 14

/-- The depth `z` is in one of the outer media or in a layer whose mask entry is true. -/
def RequestedAt (ds : List ℝ) (mask : List Bool) (z : ℝ) : Prop :=
  z ≤ 0 ∨ ds.sum < z ∨ ∃ i, mask[i]? = some true ∧ startOf ds i < z ∧ z ≤ startOf ds (i + 1)

/-- `C` is the permittivity matrix of the medium at depth `z`: that of the layer the depth is in, of the
incidence medium before the layers, of the emergence medium after them. -/
def PermittivityAt {N : ℕ} (jv1 : ℝ → ℝ) (e : Expansion N) (Ls : List (Layer N)) (er et z : ℝ)
    (C : Matrix (Fin N) (Fin N) ℂ) : Prop :=
  (z ≤ 0 ∧ C = (er : ℂ) • 1) ∨ ((Ls.map Layer.depth).sum < z ∧ C = (et : ℂ) • 1) ∨
    ∃ i l, Ls[i]? = some l ∧ startOf (Ls.map Layer.depth) i < z ∧ z ≤ startOf (Ls.map Layer.depth) (i + 1) ∧
      Permittivity jv1 e l.form C

/-- The components of the two divergence-free fields along the stacking axis that belong to given transverse
components, for fields that depend on the position in the plane by `exp(-i (kx x + ky y))`. -/
def LongitudinalAt {N : ℕ} (kx ky : Fin N → ℝ) (C : Matrix (Fin N) (Fin N) ℂ) (f : Fields6 N) : Prop :=
  C *ᵥ f.sz = (fun i => -Complex.I * (kx i * f.uy i - ky i * f.ux i)) ∧
    f.uz = fun i => -Complex.I * (kx i * f.sy i - ky i * f.sx i)

/-- Combination of Fourier-space fields, component by component. -/
def Fields6.comb {N : ℕ} (a : ℂ) (f : Fields6 N) (b : ℂ) (g : Fields6 N) : Fields6 N :=
  ⟨a • f.sx + b • g.sx, a • f.sy + b • g.sy, a • f.sz + b • g.sz,
   a • f.ux + b • g.ux, a • f.uy + b • g.uy, a • f.uz + b • g.uz⟩

/-- Combination of fields at a point. -/
def Crystal.Point6.comb (a : ℂ) (f : Crystal.Point6) (b : ℂ) (g : Crystal.Point6) : Crystal.Point6 :=
  ⟨a * f.ex + b * g.ex, a * f.ey + b * g.ey, a * f.ez + b * g.ez,
   a * f.hx + b * g.hx, a * f.hy + b * g.hy, a * f.hz + b * g.hz⟩

/-- All components at a point multiplied by one number. -/
def Crystal.Point6.scale (a : ℂ) (f : Crystal.Point6) : Crystal.Point6 :=
  ⟨a * f.ex, a * f.ey, a * f.ez, a * f.hx, a * f.hy, a * f.hz⟩

/-- The displacement `a` is a period of every order of an expansion. -/
def IsPeriod {N : ℕ} (e : Expansion N) (a : ℝ × ℝ) : Prop :=
  ∀ i, ∃ n : ℤ, (e.g i).1 * a.1 + (e.g i).2 * a.2 = 2 * Real.pi * n

/-- The open interval of depths `(u, v)` lies in one medium, of permittivity matrix `C`. -/
def MediumBetween {N : ℕ} (jv1 : ℝ → ℝ) (e : Expansion N) (Ls : List (Layer N)) (er et u v : ℝ)
    (C : Matrix (Fin N) (Fin N) ℂ) : Prop :=
  (v ≤ 0 ∧ C = (er : ℂ) • 1) ∨ ((Ls.map Layer.depth).sum ≤ u ∧ C = (et : ℂ) • 1) ∨
    ∃ i l, Ls[i]? = some l ∧ startOf (Ls.map Layer.depth) i ≤ u ∧ v ≤ startOf (Ls.map Layer.depth) (i + 1) ∧
      Permittivity jv1 e l.form C

/-- Maxwell's equations at depth `z` for Fourier components `F` of fields that depend on the position in the
plane by `exp(-i k0 (kx x + ky y))`: the four equations with derivatives along the axis, and the two without. -/
structure CurlEquations {N : ℕ} (kx ky : Fin N → ℝ) (k0 : ℝ) (C : Matrix (Fin N) (Fin N) ℂ) (F : ℝ → Fields6 N)
    (z : ℝ) : Prop where
  ex : ∀ i, HasDerivAt (fun z => (F z).sx i) (k0 * ((F z).uy i - Complex.I * kx i * (F z).sz i)) z
  ey : ∀ i, HasDerivAt (fun z => (F z).sy i) (k0 * (-(F z).ux i - Complex.I * ky i * (F z).sz i)) z
  hx : ∀ i, HasDerivAt (fun z => (F z).ux i) (k0 * ((C *ᵥ (F z).sy) i - Complex.I * kx i * (F z).uz i)) z
  hy : ∀ i, HasDerivAt (fun z => (F z).uy i) (k0 * (-(C *ᵥ (F z).sx) i - Complex.I * ky i * (F z).uz i)) z
  ez : ∀ i, (C *ᵥ (F z).sz) i = -Complex.I * (kx i * (F z).uy i - ky i * (F z).ux i)
  hz : ∀ i, (F z).uz i = -Complex.I * (kx i * (F z).sy i - ky i * (F z).sx i)

/-- Maxwell's equations at a point of space for six field components `M` in a medium of permittivity `eps`,
`curl E = k0 H` and `curl H = k0 eps E` (magnetic field scaled as in the code), one component per line. -/
structure RealMaxwell (k0 : ℝ) (eps : ℂ) (M : ℝ → ℝ → ℝ → Crystal.Point6) (x y z : ℝ) : Prop where
  hy : ∃ a b, HasDerivAt (fun z => (M x y z).ex) a z ∧ HasDerivAt (fun x => (M x y z).ez) b x ∧
    a - b = k0 * (M x y z).hy
  hx : ∃ a b, HasDerivAt (fun y => (M x y z).ez) a y ∧ HasDerivAt (fun z => (M x y z).ey) b z ∧
    a - b = k0 * (M x y z).hx
  hz : ∃ a b, HasDerivAt (fun x => (M x y z).ey) a x ∧ HasDerivAt (fun y => (M x y z).ex) b y ∧
    a - b = k0 * (M x y z).hz
  ex : ∃ a b, HasDerivAt (fun y => (M x y z).hz) a y ∧ HasDerivAt (fun z => (M x y z).hy) b z ∧
    a - b = k0 * (eps * (M x y z).ex)
  ey : ∃ a b, HasDerivAt (fun z => (M x y z).hx) a z ∧ HasDerivAt (fun x => (M x y z).hz) b x ∧
    a - b = k0 * (eps * (M x y z).ey)
  ez : ∃ a b, HasDerivAt (fun x => (M x y z).hy) a x ∧ HasDerivAt (fun y => (M x y z).hx) b y ∧
    a - b = k0 * (eps * (M x y z).ez)

end Khepri
