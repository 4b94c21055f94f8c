import Verif.Model.Tmat
import Verif.Model.Expansion

/-!
# `khepri/ez.py`: devices described in project files

`ez.py` imports `incident` and `compute_fluxes` from `khepri.tools`, which does not define them, so the script stops with
an `ImportError` before doing anything; the functions are modelled as they would run after that import, up to the
S-matrix of the device.  Names of layers and stacks are looked up in dictionaries (partial functions here).
-/

namespace Khepri

open Matrix

/-- An entry of the `geometry` of a layer, `ez.py:66-75`. -/
structure EzIsland where
  shape : String
  center : List ℝ
  radius : Option ℝ
  size : Option (List ℝ)
  material : String

/-- An entry of `layers`; a missing `geometry` is the empty list, `ez.py:59-64`. -/
structure EzLayer where
  material : String
  depth : ℝ
  geometry : List EzIsland

/-- An entry of `stacking`, `ez.py:133-141`. -/
structure EzStack where
  layers : List String
  rep : Option ℤ

/-- A project file: lattice, permittivities of materials, layers and stacks, `ez.py:24-50`. -/
structure EzConfig where
  a : ℝ
  a1 : R2
  a2 : R2
  pw : ℕ × ℕ
  incident : String
  substrate : String
  materials : String → Option ℝ
  layers : String → Option EzLayer
  stacking : String → Option EzStack

/-- `d[k]` on a dictionary. -/
def pyKey {α : Type} : Option α → Py α
  | some x => .ok x
  | none => .error .key

/-- The parameters of an island, `ez.py:69-73`. -/
def EzIsland.params (i : EzIsland) : List ℝ :=
  match i.radius, i.size with
  | some r, _ => i.center ++ [r]
  | none, some s => i.center ++ s
  | none, none => i.center

/-- The arguments `transform` hands to `transform_<shape>`, `fourier.py:23-25` (`transform_pixmap` is not modelled). -/
def ezShape : String → List ℝ → Py TShape
  | "rectangle", [a, b, c, d] => .ok (.shape (.rectangle a b c d))
  | "disc", [a, b, r] => .ok (.shape (.disc a b r))
  | "uniform", [] => .ok .uniform
  | "rectangle", _ => .error .type
  | "disc", _ => .error .type
  | "uniform", _ => .error .type
  | _, _ => .error .attribute

/-- Permittivities and scaled dimensions of a layer, `ez.py:118-123` (when several things are wrong, which error comes first is not kept). -/
noncomputable def ezOptics (cfg : EzConfig) (ly : EzLayer) : Py (List (TShape × ℂ) × ℂ) := do
  let host ← pyKey (cfg.materials ly.material)
  let islands ← ly.geometry.mapM fun i => do
    let eps ← pyKey (cfg.materials i.material)
    let s ← ezShape i.shape (i.params.map (· * cfg.a))
    return (s, (eps : ℂ))
  return (islands, (host : ℂ))

/-- The S-matrix of a layer, `ez.py:115-127`. -/
noncomputable def ezSolve (jv1 : ℝ → ℝ) (cfg : EzConfig) (l : TLattice) (wl : ℝ) (kp : ℂ × ℂ) (ly : EzLayer) :
    Py (Matrix (TIdx l.shape) (TIdx l.shape) ℂ) := do
  let o ← ezOptics cfg ly
  tmatScattering jv1 l o.1 o.2 wl kp (ly.depth * cfg.a) 3

/-- `gather_s(name, required_layers)`, `ez.py:95-101`; the names of `required_layers`.  The first argument bounds the depth
of Python's stack. -/
def gatherS (cfg : EzConfig) : ℕ → String → List String → Py (List String)
  | 0, _, _ => .error .recursion
  | k + 1, name, req =>
    match cfg.stacking name with
    | some d => d.layers.foldlM (fun r l => gatherS cfg k l r) req
    | none =>
      match cfg.layers name with
      | some _ => .ok (if name ∈ req then req else req ++ [name])
      | none => .ok req

section
variable {n : Type} [Fintype n] [DecidableEq n]

/-- `@` between the values of `stack_s` (`LayerMatrix` objects, or `None`), `tmat/scattering.py:19-23`. -/
noncomputable def ezMatmul : Option (Matrix (n ⊕ n) (n ⊕ n) ℂ) → Option (Matrix (n ⊕ n) (n ⊕ n) ℂ) →
    Py (Option (Matrix (n ⊕ n) (n ⊕ n) ℂ))
  | none, _ => .error .type
  | some _, none => .error .value
  | some A, some B => do
    let S ← multS A B
    return some S

/-- The end of `stack_s`, `ez.py:143-149`. -/
noncomputable def ezRepeat (r : ℤ) (S0 : Option (Matrix (n ⊕ n) (n ⊕ n) ℂ)) : Py (Option (Matrix (n ⊕ n) (n ⊕ n) ℂ)) :=
  if r > 1 then
    match S0 with
    | none => .error .attribute
    | some S => (List.range (r - 1).toNat).foldlM (fun acc _ => ezMatmul acc (some S)) (some S)
  else .ok S0

/-- `stack_s(name)`, `ez.py:130-149`; `get` looks up the S-matrices of `required_layers`. -/
noncomputable def stackS (cfg : EzConfig) (get : String → Option (Matrix (n ⊕ n) (n ⊕ n) ℂ)) :
    ℕ → String → Py (Option (Matrix (n ⊕ n) (n ⊕ n) ℂ))
  | 0, _ => .error .recursion
  | k + 1, name =>
    match get name with
    | some S => .ok (some S)
    | none =>
      match cfg.stacking name with
      | none => .ok none
      | some d => do
        let first ← pyGet d.layers 0
        let S0 ← stackS cfg get k first
        let S1 ← d.layers.tail.foldlM (fun S ss => do
          let R ← stackS cfg get k ss
          ezMatmul S R) S0
        ezRepeat (d.rep.getD 1) S1

end

/-- The S-matrices of the required layers, `ez.py:114-127`. -/
noncomputable def ezLayers (jv1 : ℝ → ℝ) (cfg : EzConfig) (l : TLattice) (wl : ℝ) (kp : ℂ × ℂ) (req : List String) :
    Py (List (String × Matrix (TIdx l.shape) (TIdx l.shape) ℂ)) :=
  req.mapM fun name => do
    let ly ← pyKey (cfg.layers name)
    let S ← ezSolve jv1 cfg l wl kp ly
    return (name, S)

/-- The lattice of `compute_spectrum`, `ez.py:79-90`. -/
noncomputable def ezLattice (cfg : EzConfig) : Py TLattice := do
  let ei ← pyKey (cfg.materials cfg.incident)
  let ee ← pyKey (cfg.materials cfg.substrate)
  TLattice.make cfg.pw (cfg.a1.1 * cfg.a, cfg.a1.2 * cfg.a) (cfg.a2.1 * cfg.a, cfg.a2.2 * cfg.a) (.float ei) (.float ee)

/-- The S-matrix of `device` at one wavelength and in-plane wave vector, `ez.py:103-153`. -/
noncomputable def ezDevice (jv1 : ℝ → ℝ) (cfg : EzConfig) (fuel : ℕ) (l : TLattice) (wl : ℝ) (kp : ℂ × ℂ) (device : String) :
    Py (Matrix (TIdx l.shape) (TIdx l.shape) ℂ) := do
  let req ← gatherS cfg fuel device []
  pyCheck (0 < req.length) .assertion
  let Ss ← ezLayers jv1 cfg l wl kp req
  let Stot ← stackS cfg (fun name => Ss.lookup name) fuel device
  let Si ← tmatInterface l wl kp
  let S ← ezMatmul Stot (some Si)
  match S with
  | some S => .ok S
  | none => .error .type

/-- What `plot_layer` draws: boxes (corner and sizes) and upright cylinders (centre of the base, radius, height),
`ez.py:174-223`. -/
inductive EzDrawn
  | box (x y z sx sy sz : ℝ)
  | cylinder (x y z r h : ℝ)

/-- One island, `ez.py:240-253`; other shapes are skipped. -/
def plotIsland (cfg : EzConfig) (posz depth : ℝ) (i : EzIsland) : Py (List EzDrawn) := do
  if i.shape = "disc" then
    let r ← pyKey i.radius
    let _ ← pyKey (cfg.materials i.material)
    match i.center with
    | [x, y] => return [.cylinder x y posz r depth]
    | _ => .error .type
  else if i.shape = "rectangle" then
    let _ ← pyKey (cfg.materials i.material)
    let s ← pyKey i.size
    match i.center, s with
    | [x, y], [sx, sy] => return [.box x y posz sx sy depth]
    | _, _ => .error .value
  else return []

/-- `plot_layer(ax, layer, depth)`, `ez.py:225-257`: what is drawn and the depth returned. -/
def plotLayer (cfg : EzConfig) : ℕ → String → ℝ × List EzDrawn → Py (ℝ × List EzDrawn)
  | 0, _, _ => .error .recursion
  | k + 1, name, st =>
    match cfg.stacking name with
    | some d =>
      match d.rep with
      | some r => (List.range r.toNat).foldlM (fun st _ => d.layers.foldlM (fun st l => plotLayer cfg k l st) st) st
      | none => d.layers.foldlM (fun st l => plotLayer cfg k l st) st
    | none =>
      match cfg.layers name with
      | some ly => do
        let islands ← ly.geometry.mapM (plotIsland cfg st.1 ly.depth)
        let _ ← pyKey (cfg.materials ly.material)
        return (st.1 + ly.depth, st.2 ++ islands.flatten ++ [.box 0 0 st.1 1 1 ly.depth])
      | none => .ok st

end Khepri
