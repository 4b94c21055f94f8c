import Verif.Model.Fourier

/-!
# `khepri/layer.py`: the `Layer` class
-/

namespace Khepri

open Matrix

/-- What a `Layer` describes: `formulation` together with `epsilon` (and `eps_host`),
`layer.py:19-24` and `95-143`. -/
inductive Form
  | uniform (eps : ℂ)
  | fft (pixmap : Arr2)
  | analytical (islands : List Island) (host : ℂ)
  | halfInc (eps : ℂ)
  | halfTrn (eps : ℂ)

/-- `Layer.IC`: a number or a matrix (`fields.py:64-76` tests which). -/
inductive ICVal (N : ℕ)
  | num (x : ℂ)
  | mat (M : Matrix (Fin N) (Fin N) ℂ)

/-- The square matrices acting on the `2 N` tangential components. -/
abbrev Mat2 (N : ℕ) := Matrix (Fin N ⊕ Fin N) (Fin N ⊕ Fin N) ℂ

/-- Vectors of `2 N` tangential components. -/
abbrev Vec2 (N : ℕ) := Fin N ⊕ Fin N → ℂ

/-- A `Layer` object (`layer.py:63-143`): what the user gave, the `fields` flag, and the results of
the last `solve` (`None` when absent). -/
structure Layer (N : ℕ) where
  expansion : Expansion N
  form : Form
  depth : ℝ
  fields : Bool := false
  W : Option (Mat2 N) := none
  V : Option (Mat2 N) := none
  L : Option (Vec2 N) := none
  S : Option (SMat (Fin N ⊕ Fin N)) := none
  IC : Option (ICVal N) := none

/-- `Layer.uniform(expansion, epsilon, depth)`, `layer.py:112-119`. -/
def Layer.uniform {N : ℕ} (e : Expansion N) (eps : ℂ) (depth : ℝ) : Layer N :=
  { expansion := e, form := .uniform eps, depth := depth }

/-- `Layer.pixmap(expansion, pixmap, depth)`, `layer.py:95-110`. -/
def Layer.pixmap {N : ℕ} (e : Expansion N) (p : Arr2) (depth : ℝ) : Layer N :=
  { expansion := e, form := .fft p, depth := depth }

/-- `Layer.pixmap_or_uniform(expansion, pixmap, depth)`, `layer.py:76-92` (and
`Crystal.add_pixmap_or_uniform`, `crystal.py:104-112`). -/
noncomputable def Layer.pixmapOrUniform {N : ℕ} (e : Expansion N) (p : Arr2) (depth : ℝ) :
    Py (Layer N) :=
  if h : 0 < p.nx ∧ 0 < p.ny then
    let eps0 := p.val ⟨0, h.1⟩ ⟨0, h.2⟩
    open Classical in
    if ∀ i j, p.val i j = eps0 then .ok (Layer.uniform e eps0 depth) else .ok (Layer.pixmap e p depth)
  else .error .index

/-- `Layer.analytical(...)`, `layer.py:121-129`. -/
def Layer.analytical {N : ℕ} (e : Expansion N) (islands : List Island) (host : ℂ) (depth : ℝ) : Layer N :=
  { expansion := e, form := .analytical islands host, depth := depth }

/-- `Layer.half_infinite(expansion, type, epsilon)`, `layer.py:131-143`. -/
def Layer.halfInfinite {N : ℕ} (e : Expansion N) (reflexion : Bool) (eps : ℂ) : Layer N :=
  { expansion := e, form := if reflexion then .halfInc eps else .halfTrn eps, depth := 0 }

/-- `a.reshape(shape)` of a flat array (C order); `ValueError` when the sizes differ. -/
def reshape2 (l : List ℂ) (shape : ℕ × ℕ) : Py Arr2 := do
  pyCheck (l.length = shape.1 * shape.2) .value
  return ⟨shape.1, shape.2, fun i j => l.getD (i * shape.2 + j) 0⟩

/-- The permittivity convolution matrix of the `ANALYTICAL` formulation, `layer.py:162-168`.  `.T` on
the one-dimensional array `combine_fourier_masks(…)` is the identity.  (The second table, built with
`inverse=True` at line 170, is never used.) -/
noncomputable def analyticalC {N : ℕ} (jv1 : ℝ → ℝ) (e : Expansion N) (islands : List Island)
    (host : ℂ) : Py (Matrix (Fin N) (Fin N) ℂ) := do
  let (gs, epw) ← e.gVectorsExpanded 3
  let data ← islands.mapM fun isl => do
    let t ← gs.mapM fun g => transformShape jv1 isl.shape g e.sigma
    return (t, isl.eps)
  let fourier ← combineFourierMasks data host
  let table ← reshape2 fourier epw
  convolutionMatrixFourier N table e.pw

/-- What one branch of `Layer.solve` computes: `W, V, L, S, IC`. -/
structure Solved (N : ℕ) where
  W : Mat2 N
  V : Mat2 N
  L : Vec2 N
  S : SMat (Fin N ⊕ Fin N)
  IC : ICVal N

/-- `FFT` and `ANALYTICAL` branches after `self.C` is known, `layer.py:158-160` and `171-174`. -/
noncomputable def solveWithC {N : ℕ} (lib : NumLib) (kx ky : Fin N → ℂ) (W0 V0 : Mat2 N)
    (C : Matrix (Fin N) (Fin N) ℂ) (depth k0 : ℝ) : Py (Solved N) := do
  let IC ← npInv C
  let (W, V, L) ← solveStructuredLayer (lib.eig N) kx ky C
  let S ← buildScatmat W V W0 V0 L depth k0
  return ⟨W, V, L, S, .mat IC⟩

/-- `1 / self.epsilon`. -/
noncomputable def inverseEps (eps : ℂ) : Py ℂ :=
  open Classical in if eps = 0 then .error .nonFinite else .ok (1 / eps)

/-- The body of `Layer.solve` before the results are stored, `layer.py:152-188`. -/
noncomputable def Form.solve {N : ℕ} (lib : NumLib) (e : Expansion N) (depth : ℝ) (kp : ℂ × ℂ)
    (wl : ℝ) (form : Form) : Py (Solved N) := do
  let (kx, ky, _) ← e.kVectors kp wl 1
  let (W0, V0) ← freeSpaceEigenmodes kx ky
  let k0 := 2 * Real.pi / wl
  match form with
  | .fft pix => do
    let C ← convolutionMatrix N pix e.pw
    solveWithC lib kx ky W0 V0 C depth k0
  | .analytical islands host => do
    let C ← analyticalC lib.jv1 e islands host
    solveWithC lib kx ky W0 V0 C depth k0
  | .uniform eps => do
    let (W, V, L) ← solveUniformLayer kx ky eps
    let S ← buildScatmat W V W0 V0 L depth k0
    let ic ← inverseEps eps
    return ⟨W, V, L, S, .num ic⟩
  | .halfInc eps => do
    let (S, W, V, L) ← scatteringReflection kx ky W0 V0 eps
    let ic ← inverseEps eps
    return ⟨W, V, L, S, .num ic⟩
  | .halfTrn eps => do
    let (S, W, V, L) ← scatteringTransmission kx ky W0 V0 eps
    let ic ← inverseEps eps
    return ⟨W, V, L, S, .num ic⟩

/-- `Layer.solve(k_parallel, wavelength)`, `layer.py:145-194`: compute, store, and drop the eigenspace
when `fields` is off. -/
noncomputable def Layer.solve {N : ℕ} (lib : NumLib) (l : Layer N) (kp : ℂ × ℂ) (wl : ℝ) :
    Py (Layer N) := do
  let r ← l.form.solve lib l.expansion l.depth kp wl
  return { l with
    S := some r.S
    W := if l.fields then some r.W else none
    V := if l.fields then some r.V else none
    L := if l.fields then some r.L else none
    IC := if l.fields then some r.IC else none }

end Khepri
