import Verif.Model.Layer

/-!
# `khepri/extension.py`: layers of one lattice inside the space of two lattices

`result` and the submatrices are modelled as flat memories (C order), and the `as_strided` views as
offset computations, exactly as written in the code.
-/

namespace Khepri

open Matrix

/-- Position of a tangential component in numpy's flat numbering of `2 N` components. -/
def sumIdx {N : ℕ} : Fin N ⊕ Fin N → ℕ
  | .inl i => i
  | .inr i => N + i

/-- The component at a flat position (`0` outside the array). -/
noncomputable def vecAt {N : ℕ} (f : Fin N ⊕ Fin N → ℂ) (k : ℕ) : ℂ :=
  if h : k < N then f (.inl ⟨k, h⟩) else if h' : k - N < N then f (.inr ⟨k - N, h'⟩) else 0

/-- Reading a `2N × 2N` matrix at a flat memory offset (C order). -/
noncomputable def matFlat {N : ℕ} (A : Mat2 N) (o : ℕ) : ℂ :=
  vecAt (fun x => vecAt (A x) (o % (2 * N))) (o / (2 * N))

/-- Offset of `view[a, b, i, r, c]` in `result`, `extension.py:35-42`. -/
def jointOffset (N kind a b i r c : ℕ) : ℕ :=
  if kind = 0 then a * (2 * N ^ 4) + b * N ^ 2 + i * (2 * N ^ 3 + N) + r * (2 * N ^ 2) + c
  else a * (2 * N ^ 4) + b * N ^ 2 + i * (2 * N ^ 2 + 1) + r * (2 * N ^ 3) + c * N

/-- The index tuples `(a, b, r, c)` of a `(2, 2, N, N)` view, in C order. -/
def quads (N : ℕ) : List (ℕ × ℕ × ℕ × ℕ) :=
  (List.range 2).flatMap fun a => (List.range 2).flatMap fun b =>
    (List.range N).flatMap fun r => (List.range N).map fun c => (a, b, r, c)

/-- `view[:, :, i] = view_smat`, `extension.py:49-50`: one memory write per index tuple; the source
view has strides `(2N², N, 2N, 1)`. -/
noncomputable def jointWrite {N : ℕ} (kind i : ℕ) (A : Mat2 N) (mem : ℕ → ℂ) : ℕ → ℂ :=
  (quads N).foldl (fun m q =>
    Function.update m (jointOffset N kind q.1 q.2.1 i q.2.2.1 q.2.2.2)
      (matFlat A (q.1 * (2 * N ^ 2) + q.2.1 * N + q.2.2.1 * (2 * N) + q.2.2.2))) mem

/-- `_joint_subspace(submatrices, kind)`, `extension.py:10-51`.  The result, a `2N² × 2N²` array, is
read back as a matrix over `K = N²` orders. -/
noncomputable def jointSubspace {N : ℕ} (K : ℕ) (subs : List (Mat2 N)) (kind : ℕ) : Py (Mat2 K) := do
  let _ ← pyGet subs 0
  pyCheck (kind < 2) .notImplemented
  let mem ← subs.zipIdx.foldlM (fun m p => do
    pyCheck (p.2 < N) .index
    return jointWrite kind p.2 p.1 m) (fun _ => (0 : ℂ))
  return Matrix.of fun x y => mem (sumIdx x * (2 * N ^ 2) + sumIdx y)

/-- `joint_subspace(submatrices, kind)`, `extension.py:54-63`. -/
noncomputable def jointSMat {N : ℕ} (K : ℕ) (Ss : List (SMat (Fin N ⊕ Fin N))) (kind : ℕ) :
    Py (SMat (Fin K ⊕ Fin K)) := do
  let a ← jointSubspace K (Ss.map SMat.s11) kind
  let b ← jointSubspace K (Ss.map SMat.s12) kind
  let c ← jointSubspace K (Ss.map SMat.s21) kind
  let d ← jointSubspace K (Ss.map SMat.s22) kind
  return ⟨a, b, c, d⟩

/-- `kp + k_parallel`. -/
noncomputable def shiftKp (g : R2) (kp : ℂ × ℂ) : ℂ × ℂ := ((g.1 : ℂ) + kp.1, (g.2 : ℂ) + kp.2)

/-- `extended_freespace(e, gs, wl, mode, k_parallel)`, `extension.py:114-126`. -/
noncomputable def extendedFreespace {M : ℕ} (K : ℕ) (e : Expansion M) (gs : List R2) (wl : ℝ)
    (mode : ℕ) (kp : ℂ × ℂ) : Py (Mat2 K × Mat2 K) := do
  let WV ← gs.mapM fun g => do
    let (kx, ky, _) ← e.kVectors (shiftKp g kp) wl 1
    freeSpaceEigenmodes kx ky
  let W0 ← jointSubspace K (WV.map Prod.fst) mode
  let V0 ← jointSubspace K (WV.map Prod.snd) mode
  return (W0, V0)

/-- An `ExtendedLayer` object (`extension.py:66-80`) in a space of `K = M²` orders. -/
structure ExtLayer (K : ℕ) where
  M : ℕ
  hM : M * M = K
  expansion : Expansion K
  base : Layer M
  mode : ℕ
  gs : List R2
  depth : ℝ
  fields : Bool
  S : Option (SMat (Fin K ⊕ Fin K)) := none
  W : Option (Mat2 K) := none
  V : Option (Mat2 K) := none
  W0 : Option (Mat2 K) := none
  V0 : Option (Mat2 K) := none
  L : Option (Vec2 K) := none
  IC : Option (ICVal K) := none

/-- `ExtendedLayer(expansion, base)`, `extension.py:67-80`, for a base that is a `Layer`. -/
noncomputable def ExtLayer.make {M : ℕ} (se : SumExpansion M) (base : Layer M) :
    Py (ExtLayer (M * M)) :=
  if se.lhs.tag = base.expansion.tag then
    .ok { M := M, hM := rfl, expansion := se.exp, base := base, mode := 1, gs := List.ofFn se.rhs.g,
          depth := base.depth, fields := base.fields }
  else if se.rhs.tag = base.expansion.tag then
    .ok { M := M, hM := rfl, expansion := se.exp, base := base, mode := 0, gs := List.ofFn se.lhs.g,
          depth := base.depth, fields := base.fields }
  else .error .notImplemented

/-- Accumulated results of the loop over the g-vectors of the other lattice. -/
structure ExtAcc (M : ℕ) where
  base : Layer M
  Ss : List (SMat (Fin M ⊕ Fin M)) := []
  Ws : List (Mat2 M) := []
  Vs : List (Mat2 M) := []
  Ls : List (Mat2 M) := []

/-- One iteration of the loop of `ExtendedLayer.solve`, `extension.py:90-101`. -/
noncomputable def extStep {M : ℕ} (lib : NumLib) (fields : Bool) (kp : ℂ × ℂ) (wl : ℝ)
    (acc : ExtAcc M) (g : R2) : Py (ExtAcc M) := do
  let b ← acc.base.solve lib (shiftKp g kp) wl
  let S ← pySome b.S
  if fields then
    let W ← pySome b.W
    let V ← pySome b.V
    let L ← pySome b.L
    return { base := b, Ss := acc.Ss ++ [S], Ws := acc.Ws ++ [W], Vs := acc.Vs ++ [V],
             Ls := acc.Ls ++ [Matrix.diagonal L] }
  else
    return { acc with base := b, Ss := acc.Ss ++ [S] }

/-- `ExtendedLayer.solve(k_parallel, wavelength)`, `extension.py:82-112`. -/
noncomputable def ExtLayer.solve {K : ℕ} (lib : NumLib) (l : ExtLayer K) (kp : ℂ × ℂ) (wl : ℝ) :
    Py (ExtLayer K) := do
  let acc ← l.gs.foldlM (extStep lib l.fields kp wl) { base := { l.base with fields := l.fields } }
  let S ← jointSMat K acc.Ss l.mode
  if l.fields then
    let W ← jointSubspace K acc.Ws l.mode
    let V ← jointSubspace K acc.Vs l.mode
    let (W0, V0) ← extendedFreespace K l.base.expansion l.gs wl l.mode kp
    let Ld ← jointSubspace K acc.Ls l.mode
    return { l with base := acc.base, S := some S, W := some W, V := some V, W0 := some W0,
                    V0 := some V0, L := some fun i => Ld i i, IC := some (.num 1) }
  else
    return { l with base := acc.base, S := some S, IC := some (.num 1) }

end Khepri
