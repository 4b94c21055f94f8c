import Verif.Model.Alternative

/-!
# `stack_layers` (`khepri/layer.py:35-60`) and `translate_mode_amplitudes` (`khepri/fields.py:18-27`)
-/

namespace Khepri

open Matrix

variable {n : Type} [Fintype n] [DecidableEq n]

/-- Python `l[i]` for a list and a non-negative `i`. -/
def pyGet {α : Type} (l : List α) (i : ℕ) : Py α :=
  match l[i]? with
  | some a => .ok a
  | none => .error .index

/-- First loop of `stack_layers`, `layer.py:42-47`, from index `i` on; a layer is represented by its
S-matrix `layer.S`. -/
noncomputable def stackForward (mask : List Bool) (i : ℕ) (Stot : SMat n) :
    List (SMat n) → Py (List (Option (SMat n)) × SMat n)
  | [] => .ok ([], Stot)
  | L :: rest => do
    let Stot' ← redheffer Stot L
    let m ← pyGet mask i
    let (Sls, S) ← stackForward mask (i + 1) Stot' rest
    return ((if m then some Stot' else none) :: Sls, S)

/-- Second loop of `stack_layers`, `layer.py:52-57`, from index `i` on (over the reversed list). -/
noncomputable def stackBackward (mask : List Bool) (i : ℕ) (Srev : SMat n) :
    List (SMat n) → Py (List (Option (SMat n)) × SMat n)
  | [] => .ok ([], Srev)
  | L :: rest => do
    let m ← pyGet mask i
    let Srev' ← redheffer L Srev
    let (Srs, S) ← stackBackward mask (i + 1) Srev' rest
    return ((if m then some Srev else none) :: Srs, S)

/-- What `stack_layers` returns: `Sls, Srs, Stot`. -/
structure Stacked (n : Type) where
  Sls : List (Option (SMat n))
  Srs : List (Option (SMat n))
  Stot : SMat n

/-- `stack_layers(pw, layers, mask)`, `layer.py:35-60`. -/
noncomputable def stackLayers (layers : List (SMat n)) (mask : List Bool) : Py (Stacked n) := do
  let (Sls, Stot) ← stackForward mask 0 (scatteringIdentity n) layers
  let mask' := (mask.drop 1).reverse
  let (Srs, Srev) ← stackBackward mask' 0 (scatteringIdentity n) (layers.drop 1).reverse
  return ⟨Sls, (Srs ++ [some Srev]).reverse, Stot⟩

/-- `translate_mode_amplitudes(Sl, Sr, c1p, c1m, c2p)`, `fields.py:18-27` (`c1m` and `c2p` are
not used by the code). -/
noncomputable def translateModeAmplitudes (Sl Sr : SMat n) (c1p : n → ℂ) : Py ((n → ℂ) × (n → ℂ)) := do
  let F := 1 - Sl.s22 * Sr.s11
  let cdplus ← npSolveVec F (Sl.s21 *ᵥ c1p)
  let cdminus := Sr.s11 *ᵥ cdplus
  return (cdplus, cdminus)

end Khepri
