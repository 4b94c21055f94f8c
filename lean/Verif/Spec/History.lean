import Verif.Spec.Crystal

/-!
# Histories of calls on a `Crystal` (specification)

What the user described, as opposed to what the object happens to remember: the layers last registered
under each name, the device and the source set last.
-/

namespace Khepri

variable {N : ℕ}

/-- The description of a layer: everything but the results of earlier solves and the request for
fields. -/
def Layer.described (l : Layer N) : Layer N := ⟨l.expansion, l.form, l.depth, false, none, none, none, none, none⟩

/-- The description of an extended layer. -/
def ExtLayer.described (l : ExtLayer N) : ExtLayer N :=
  ⟨l.M, l.hM, l.expansion, l.base.described, l.mode, l.gs, l.depth, false,
    none, none, none, none, none, none, none⟩

/-- The description of a registered layer. -/
def AnyLayer.described : AnyLayer N → AnyLayer N
  | .plain l => .plain l.described
  | .ext l => .ext l.described

/-- The calls of the API that change a crystal. -/
inductive Call (N : ℕ)
  /-- `add_layer`, `add_layer_uniform`, `add_layer_pixmap`, … -/
  | register (name : String) (l : AnyLayer N)
  /-- `set_device` -/
  | device (stack : List String) (mask : Bool ⊕ List Bool)
  /-- `set_source` -/
  | source (wl : ℝ) (te tm : ℂ) (theta phi : ℝ) (kp : Option (ℂ × ℂ))
  /-- `solve`, visiting the set of required layers in the given order -/
  | solve (order : List String)

/-- Performing one call. -/
noncomputable def Crystal.call (lib : NumLib) (c : Crystal N) : Call N → Py (Crystal N)
  | .register x l => .ok (c.setLayer x l)
  | .device s m => c.setDevice s m
  | .source wl te tm theta phi kp => c.setSource wl te tm theta phi kp
  | .solve order => c.solve lib order

/-- Performing a sequence of calls (the first exception ends it). -/
noncomputable def Crystal.run (lib : NumLib) (c : Crystal N) (h : List (Call N)) : Py (Crystal N) :=
  h.foldlM (Crystal.call lib) c

/-- The iteration orders in the history are orders a set of the required layers can have when the
call is made. -/
def Crystal.Orders (lib : NumLib) : Crystal N → List (Call N) → Prop
  | _, [] => True
  | c, k :: h => (∀ order, k = .solve order → order.Nodup) ∧
      ∀ c', c.call lib k = .ok c' → Crystal.Orders lib c' h

/-- The layer last registered under a name. -/
def registered (x : String) : List (Call N) → Option (AnyLayer N) :=
  List.foldl (fun last k => match k with
    | .register y l => if y = x then some l else last
    | _ => last) none

/-- The device set last: its stack and mask. -/
def lastDevice : List (Call N) → Option (List String × (Bool ⊕ List Bool)) :=
  List.foldl (fun last k => match k with
    | .device s m => some (s, m)
    | _ => last) none

/-- The arguments of the last `set_source`. -/
def lastSource : List (Call N) → Option (ℝ × ℂ × ℂ × ℝ × ℝ × Option (ℂ × ℂ)) :=
  List.foldl (fun last k => match k with
    | .source wl te tm theta phi kp => some (wl, te, tm, theta, phi, kp)
    | _ => last) none

/-- A crystal as the constructor leaves it (`crystal.py:43-95`). -/
def newCrystal (e : Expansion N) (void : Bool) (epsi epse : ℂ) : Crystal N :=
  { expansion := e, void := void, epsi := epsi, epse := epse }

/-- Two histories describe the same thing to be solved: same last device, same last source, and the
same last layer for every name of that device (media included). -/
structure SameDescription (h h' : List (Call N)) : Prop where
  device : lastDevice h = lastDevice h'
  source : lastSource h = lastSource h'
  layers : ∀ s m, lastDevice h = some (s, m) → ∀ x ∈ "Sref" :: "Strans" :: s,
    (registered x h).map AnyLayer.described = (registered x h').map AnyLayer.described

/-- Two solved layers hold the same results; the eigenmode data only when both were asked for. -/
structure SameResults (r r' : AnyLayer N) : Prop where
  depth : r.depth = r'.depth
  S : r.S = r'.S
  W : r.fields = true → r'.fields = true → r.W = r'.W
  V : r.fields = true → r'.fields = true → r.V = r'.V
  L : r.fields = true → r'.fields = true → r.L = r'.L
  IC : r.fields = true → r'.fields = true → r.IC = r'.IC
  gap : r.fields = true → r'.fields = true → ∀ kx ky, Crystal.gapModes r kx ky = Crystal.gapModes r' kx ky

/-- The mask entry of place `i` is true. -/
def MaskAt (m : Bool ⊕ List Bool) (i : ℕ) : Prop :=
  match m with
  | .inl b => b = true
  | .inr l => l[i]? = some true

/-- The call `set_device(s, m)` asks for the fields of the layer named `x`: it is an outer medium, or some
place of the stack it occupies has a true mask entry. -/
def Asks (s : List String) (m : Bool ⊕ List Bool) (x : String) : Prop :=
  x = "Sref" ∨ x = "Strans" ∨ ∃ i : ℕ, s[i]? = some x ∧ MaskAt m i

/-- Fields have been asked for in the layer named `x` since it was registered. -/
def Asked (x : String) : List (Call N) → Prop :=
  List.foldl (fun asked k => match k with
    | .register y l => if y = x then l.fields = true else asked
    | .device s m => asked ∨ Asks s m x
    | _ => asked) False

/-- All masks given as lists have the length of the stack. -/
def MasksFit (h : List (Call N)) : Prop := ∀ s l, Call.device s (.inr l) ∈ h → l.length = s.length

/-- All registered layers are new (they hold no results). -/
def NewLayers (h : List (Call N)) : Prop := ∀ x l, Call.register x l ∈ h → l.W = none ∧ l.V = none ∧ l.L = none

end Khepri
