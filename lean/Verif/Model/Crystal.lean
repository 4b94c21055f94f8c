import Verif.Model.Extension
import Verif.Model.Sources
import Mathlib.Data.EReal.Operations

/-!
# `khepri/crystal.py` and `khepri/fields.py`: devices, solving, fields and fluxes

A `Crystal` is a record; every method is a function from the record to a new record or to a value.
Python object sharing (the same `Layer` object registered under two names) is not modelled: each
name owns its layer.
-/

namespace Khepri

open Matrix

/-- A value of the dictionary `Crystal.layers`: a `Layer` or an `ExtendedLayer`. -/
inductive AnyLayer (N : ℕ)
  | plain (l : Layer N)
  | ext (l : ExtLayer N)

namespace AnyLayer
variable {N : ℕ}

/-- `layer.depth`. -/
def depth : AnyLayer N → ℝ
  | plain l => l.depth
  | ext l => l.depth

/-- `layer.fields`. -/
def fields : AnyLayer N → Bool
  | plain l => l.fields
  | ext l => l.fields

/-- `layer.S`. -/
def S : AnyLayer N → Option (SMat (Fin N ⊕ Fin N))
  | plain l => l.S
  | ext l => l.S

/-- `layer.W`. -/
def W : AnyLayer N → Option (Mat2 N)
  | plain l => l.W
  | ext l => l.W

/-- `layer.V`. -/
def V : AnyLayer N → Option (Mat2 N)
  | plain l => l.V
  | ext l => l.V

/-- `layer.L`. -/
def L : AnyLayer N → Option (Vec2 N)
  | plain l => l.L
  | ext l => l.L

/-- `layer.IC`. -/
def IC : AnyLayer N → Option (ICVal N)
  | plain l => l.IC
  | ext l => l.IC

/-- `layer.solve(kp, wavelength)`. -/
noncomputable def solve (lib : NumLib) (kp : ℂ × ℂ) (wl : ℝ) : AnyLayer N → Py (AnyLayer N)
  | plain l => do return plain (← l.solve lib kp wl)
  | ext l => do return ext (← l.solve lib kp wl)

/-- `layer.fields |= enabled`, and the same on `layer.base` when there is one,
`crystal.py:162-164`. -/
def enable (b : Bool) : AnyLayer N → AnyLayer N
  | plain l => plain { l with fields := l.fields || b }
  | ext l => ext { l with fields := l.fields || b,
                          base := { l.base with fields := l.base.fields || b } }

end AnyLayer

/-- The state set by `set_source`, `crystal.py:345-360`. -/
structure Source where
  te : ℂ
  tm : ℂ
  theta : ℝ
  phi : ℝ
  wavelength : ℝ
  kp : ℂ × ℂ
  kzi : ℂ

/-- A `Crystal` object (`crystal.py:34-95`).  `stacked` holds `stacking_matrices`,
`stacking_reverse_matrices` and `Stot` (`S` is the same object as `Stot`). -/
structure Crystal (N : ℕ) where
  expansion : Expansion N
  void : Bool := false
  epsi : ℂ := 1
  epse : ℂ := 1
  layers : String → Option (AnyLayer N) := fun _ => none
  deviceStack : Option (List String) := none
  globalStacking : Option (List String) := none
  retainMask : List Bool := []
  source : Option Source := none
  stackPositions : List EReal := []
  stacked : Option (Stacked (Fin N ⊕ Fin N)) := none

namespace Crystal
variable {N : ℕ}

/-- An attribute that does not exist yet: `AttributeError`. -/
def attr {α : Type} : Option α → Py α
  | some a => .ok a
  | none => .error .attribute

/-- `assert x is not None`. -/
def asserted {α : Type} : Option α → Py α
  | some a => .ok a
  | none => .error .assertion

/-- The value given, or the default. -/
def orDefault {α : Type} : Option α → Py α → Py α
  | some a, _ => .ok a
  | none, d => d

/-- `self.layers[name]`. -/
def layer (c : Crystal N) (name : String) : Py (AnyLayer N) :=
  match c.layers name with
  | some l => .ok l
  | none => .error .key

/-- `self.layers[name] = l`. -/
def setLayer (c : Crystal N) (name : String) (l : AnyLayer N) : Crystal N :=
  { c with layers := Function.update c.layers name (some l) }

/-- `add_layer(name, layer, extended=False)` and `add_layer_*`, `crystal.py:97-129`. -/
def addLayer (c : Crystal N) (name : String) (l : Layer N) : Crystal N := c.setLayer name (.plain l)

/-- `add_layer(name, layer, extended=True)`, `crystal.py:125-129`, on a crystal whose expansion is the sum `se` of two
expansions. -/
noncomputable def addExtended {M : ℕ} (c : Crystal (M * M)) (se : SumExpansion M) (name : String) (l : Layer M) :
    Py (Crystal (M * M)) := (ExtLayer.make se l).map fun a => c.setLayer name (.ext a)

/-- `set_source(wavelength, te, tm, theta, phi, kp)`, `crystal.py:345-360`. -/
noncomputable def setSource (c : Crystal N) (wl : ℝ) (te tm : ℂ) (theta phi : ℝ)
    (kp : Option (ℂ × ℂ)) : Py (Crystal N) := do
  let kp' ← orDefault kp (computeKplanar c.epsi wl theta phi)
  if wl = 0 then throw .nonFinite
  let k0 : ℝ := 2 * Real.pi / wl
  let kzi := star (csqrt ((k0 : ℂ) ^ 2 * c.epsi - kp'.1 ^ 2 - kp'.2 ^ 2))
  return { c with source := some ⟨te, tm, theta, phi, wl, kp', kzi⟩ }

/-- The loop `crystal.py:161-164`. -/
def enableFields (c : Crystal N) : List (String × Bool) → Py (Crystal N)
  | [] => .ok c
  | (name, b) :: rest => do
    let l ← c.layer name
    enableFields (c.setLayer name (l.enable b)) rest

/-- The stack with the outer media, `crystal.py:136-141`. -/
def withOuter (void : Bool) (stack : List String) : List String :=
  if void then stack else "Sref" :: (stack ++ ["Strans"])

/-- Creating the default outer medium `name` when it is needed and missing, `crystal.py:144-153`. -/
noncomputable def ensureHalf (c : Crystal N) (stacking : List String) (name : String) (refl : Bool)
    (eps : ℂ) : Crystal N :=
  if name ∈ stacking ∧ (c.layers name).isNone then
    c.setLayer name (.plain { Layer.halfInfinite c.expansion refl eps with fields := true })
  else c

/-- `set_device(layers_stack, fields_mask)`, `crystal.py:131-164`; `mask` is the list given by the user
or a boolean. -/
noncomputable def setDevice (c : Crystal N) (stack : List String) (mask : Bool ⊕ List Bool) :
    Py (Crystal N) := do
  let stacking := withOuter c.void stack
  let c1 := c.ensureHalf stacking "Sref" true c.epsi
  let c2 := c1.ensureHalf stacking "Strans" false c.epse
  let fm := match mask with
    | .inl b => List.replicate stack.length b
    | .inr l => l
  let retain := true :: (fm ++ [true])
  let c3 := { c2 with deviceStack := some stack, globalStacking := some stacking, retainMask := retain }
  c3.enableFields (stacking.zip retain)

/-- `depth`, `crystal.py:166-171`. -/
noncomputable def depth (c : Crystal N) : Py ℝ := do
  let names ← attr c.deviceStack
  let ls ← names.mapM c.layer
  return (ls.map AnyLayer.depth).foldl (· + ·) 0

/-- The loop `crystal.py:185-186` over the required layers, in whatever order the Python `set`
yields them. -/
noncomputable def solveLayers (lib : NumLib) (kp : ℂ × ℂ) (wl : ℝ) (c : Crystal N) :
    List String → Py (Crystal N)
  | [] => .ok c
  | name :: rest => do
    let l ← c.layer name
    let l' ← l.solve lib kp wl
    solveLayers lib kp wl (c.setLayer name l') rest

/-- `np.cumsum`. -/
noncomputable def cumsum (acc : ℝ) : List ℝ → List ℝ
  | [] => []
  | d :: ds => (acc + d) :: cumsum (acc + d) ds

/-- `stack_positions`, `crystal.py:195-200`. -/
noncomputable def positions (void : Bool) (sizes : List ℝ) : Py (List EReal) := do
  let cs : List EReal := (cumsum 0 sizes).map fun x : ℝ => (x : EReal)
  pyCheck (cs ≠ []) .index
  let p := cs.dropLast ++ [⊤]
  return if void then p else ⊥ :: p

/-- `solve()`, `crystal.py:180-206`; `order` is the iteration order of the set of required
layers. -/
noncomputable def solve (lib : NumLib) (order : List String) (c : Crystal N) : Py (Crystal N) := do
  let src ← asserted c.source
  let names ← attr c.globalStacking
  let c1 ← c.solveLayers lib src.kp src.wavelength order
  let ls ← names.mapM c1.layer
  let pos ← positions c.void (ls.map AnyLayer.depth)
  let Ss ← ls.mapM fun l => pySome l.S
  let st ← stackLayers Ss c1.retainMask
  return { c1 with stackPositions := pos, stacked := some st }

/-- `np.searchsorted(a, z)` (side `left`): numpy's bisection. -/
noncomputable def searchsorted (a : List EReal) (z : EReal) (lo hi : ℕ) : ℕ :=
  if h : lo < hi then
    let mid := lo + (hi - lo) / 2
    if a.getD mid ⊤ < z then searchsorted a z (mid + 1) hi else searchsorted a z lo mid
  else lo
termination_by hi - lo

/-- `locate_layer(z)`, `crystal.py:208-232`, for a finite `z`.  The debug message at line 229 evaluates
`stack_positions[layer_index]` and `stack_positions[layer_index + 1]`. -/
noncomputable def locateLayer (c : Crystal N) (z : ℝ) : Py (AnyLayer N × ℤ × EReal) := do
  let idx : ℤ := (searchsorted c.stackPositions z 0 c.stackPositions.length : ℤ) - 1
  let names ← attr c.globalStacking
  let name ← pyGetZ names idx
  let lo ← pyGetZ c.stackPositions idx
  let zr : EReal := if z ≤ 0 then z else (z : EReal) - lo
  let _ ← pyGetZ c.stackPositions (idx + 1)
  let l ← c.layer name
  return (l, idx, zr)

end Crystal

/-- `layer_eigenbasis_matrix(WI, VI)`, `fields.py:46-51`. -/
def layerEigenbasis {n : Type} (W V : Matrix n n ℂ) : Matrix (n ⊕ n) (n ⊕ n) ℂ :=
  Matrix.fromBlocks W W (-V) V

/-- `L[mask] /= np.abs(L[mask]) / 1e14`, `fields.py:59-60`, one element. -/
noncomputable def clampPhasor (x : ℂ) : ℂ :=
  if ‖x‖ > 10 ^ 14 then x / ((‖x‖ / 10 ^ 14 : ℝ) : ℂ) else x

/-- `fourier_fields_from_mode_amplitudes(RI, LI, R0, mode_amplitudes, zbar)`, `fields.py:53-62`, with
`compute_z_propagator`, `fields.py:29-31`, in place. -/
noncomputable def fourierFieldsFromModes {n : Type} [Fintype n] [DecidableEq n]
    (RI : Matrix (n ⊕ n) (n ⊕ n) ℂ) (LI : n → ℂ) (R0 : Matrix (n ⊕ n) (n ⊕ n) ℂ) (cp cm : n → ℂ)
    (zbar : ℝ) : Py (n ⊕ n → ℂ) := do
  let L : n ⊕ n → ℂ := fun i => clampPhasor
    (Sum.elim (fun j => Complex.exp (LI j * zbar)) (fun j => Complex.exp (-(LI j * zbar))) i)
  let a ← npSolveVec RI (R0 *ᵥ Sum.elim cp cm)
  return RI *ᵥ fun i => L i * a i

/-- The six Fourier-space field components. -/
structure Fields6 (N : ℕ) where
  sx : Fin N → ℂ
  sy : Fin N → ℂ
  sz : Fin N → ℂ
  ux : Fin N → ℂ
  uy : Fin N → ℂ
  uz : Fin N → ℂ

/-- `longitudinal_fields((sx, sy, ux, uy), kx, ky, IC)`, `fields.py:68-76`: `(sz, uz)`. -/
noncomputable def longitudinalFields {N : ℕ} (sx sy ux uy kx ky : Fin N → ℂ) (ic : ICVal N) :
    (Fin N → ℂ) × (Fin N → ℂ) :=
  let cr : Fin N → ℂ := fun i => kx i * uy i - ky i * ux i
  (match ic with
    | .num x => fun i => -Complex.I * x * cr i
    | .mat A => fun i => -Complex.I * (A *ᵥ cr) i,
   fun i => -Complex.I * (kx i * sy i - ky i * sx i))

namespace Crystal
variable {N : ℕ}

/-- A finite value of `zr`. -/
noncomputable def finite (x : EReal) : Py ℝ := if x = ⊤ ∨ x = ⊥ then .error .nonFinite else .ok x.toReal

/-- The gap modes used for a layer, `crystal.py:249-254`. -/
noncomputable def gapModes (l : AnyLayer N) (kx ky : Fin N → ℂ) : Py (Mat2 N × Mat2 N) :=
  match l with
  | .plain _ => freeSpaceEigenmodes kx ky
  | .ext e => do
    let W0 ← attr e.W0
    let V0 ← attr e.V0
    return (W0, V0)

/-- `_fourier_fields(z, incident_fields)`, `crystal.py:234-279`; `E`, `H` are the two halves of
`incident_fields`. -/
noncomputable def fourierFields (c : Crystal N) (z : ℝ) (E H : Vec2 N) : Py (Fields6 N) := do
  let (l, idx, zr) ← c.locateLayer z
  pyCheck (l.fields = true) .assertion
  let LI ← pySome l.L
  let WI ← pySome l.W
  let VI ← pySome l.V
  let RI := layerEigenbasis WI VI
  let src ← attr c.source
  let (kx, ky, _) ← c.expansion.kVectors src.kp src.wavelength 1
  let (W0, V0) ← gapModes l kx ky
  let R0 := layerEigenbasis W0 V0
  let k0 := 2 * Real.pi / src.wavelength
  let ref ← c.layer "Sref"
  let Wref ← pySome ref.W
  let Vref ← pySome ref.V
  let sol ← npSolveVec (layerEigenbasis Wref Vref) (Sum.elim E H)
  let c1p : Vec2 N := fun i => sol (.inl i)
  let st ← attr c.stacked
  let Sl ← pyGetZ st.Sls idx
  let Sr ← pyGetZ st.Srs idx
  let Sl ← pySome Sl
  let Sr ← pySome Sr
  let (cp, cm) ← translateModeAmplitudes Sl Sr c1p
  let zr ← finite zr
  let f ← fourierFieldsFromModes RI LI R0 cp cm (k0 * (l.depth - zr))
  let sx : Fin N → ℂ := fun i => f (.inl (.inl i))
  let sy : Fin N → ℂ := fun i => f (.inl (.inr i))
  let ux : Fin N → ℂ := fun i => f (.inr (.inl i))
  let uy : Fin N → ℂ := fun i => f (.inr (.inr i))
  let ic ← attr l.IC
  let lz := longitudinalFields sx sy ux uy kx ky ic
  return ⟨sx, sy, lz.1, ux, uy, lz.2⟩

/-- `get_source_as_field_vectors()`, `crystal.py:281-295`. -/
noncomputable def sourceFields (c : Crystal N) : Py (Vec2 N × Vec2 N) := do
  let src ← attr c.source
  let e ← incident N src.te src.tm ⟨src.kp.1, src.kp.2, src.kzi⟩
  return (e, 0)

/-- Real-space components at one point of the plane. -/
structure Point6 where
  ex : ℂ
  ey : ℂ
  ez : ℂ
  hx : ℂ
  hy : ℂ
  hz : ℂ

/-- `fields_coords_xy(x, y, z, incident_fields, kp)` at one point, `crystal.py:297-333`: the default
incident fields are those of the source, the default `kp` the source's. -/
noncomputable def fieldsAt (c : Crystal N) (x y z : ℝ) (inc : Option (Vec2 N × Vec2 N))
    (kp : Option (ℂ × ℂ)) : Py Point6 := do
  pyCheck (c.stacked.isSome = true) .assertion
  let src ← attr c.source
  let (E, H) ← orDefault inc c.sourceFields
  let (kx, ky, _) ← c.expansion.kVectors (kp.getD src.kp) src.wavelength 1
  let f ← c.fourierFields z E H
  let k0 : ℝ := 2 * Real.pi / src.wavelength
  let r := fun s : Fin N → ℂ => idft s (fun i => k0 * kx i) (fun i => k0 * ky i) x y
  return ⟨r f.sx, r f.sy, r f.sz, r f.ux, r f.uy, r f.uz⟩

/-- Reflected and transmitted fluxes, total and per order. -/
structure Fluxes (N : ℕ) where
  R : ℝ
  T : ℝ
  Rg : Fin N → ℝ
  Tg : Fin N → ℝ

/-- `poynting_flux_end(only_total=False)`, `crystal.py:363-396`. -/
noncomputable def poyntingFluxEnd (c : Crystal N) : Py (Fluxes N) := do
  let st ← asserted c.stacked
  let src ← attr c.source
  let inc ← incident N src.te src.tm ⟨src.kp.1, src.kp.2, src.kzi⟩
  let ref ← c.layer "Sref"
  let Wref ← pySome ref.W
  let iWref ← npInv Wref
  let c1p := iWref *ᵥ inc
  let tr ← c.layer "Strans"
  let Wtrans ← pySome tr.W
  let T ← poyntingFluxes c.expansion ((Wtrans * st.Stot.s21) *ᵥ c1p) src.kp src.wavelength c.epsi c.epse
  let R ← poyntingFluxes c.expansion ((Wref * st.Stot.s11) *ᵥ c1p) src.kp src.wavelength c.epsi c.epsi
  return ⟨R.1, T.1, R.2, T.2⟩

/-- `zmax`, `crystal.py:398-400`. -/
noncomputable def zmax (c : Crystal N) : Py EReal := pyGetZ c.stackPositions (-2)

end Crystal

end Khepri
