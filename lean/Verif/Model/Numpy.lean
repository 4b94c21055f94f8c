import Mathlib.LinearAlgebra.Matrix.NonsingularInverse
import Mathlib.Analysis.SpecialFunctions.Pow.Complex

/-!
# numpy / Python primitives used by the model

Exact-arithmetic stand-ins for the numpy functions Khepri calls.  See `DESIGN.md`, section 1,
for what this idealises (no rounding, `LinAlgError` exactly when the determinant is zero, …).
-/

namespace Khepri

/-- The Python exceptions the modelled code can raise.  `nonFinite` stands for a numpy result
containing `inf`/`nan` (numpy only warns there; the model returns no value). -/
inductive PyErr
  | linAlg | index | assertion | value | key | attribute | type | notImplemented
  | nonFinite | recursion
  deriving DecidableEq, Repr

/-- A Python computation: a value or an exception. -/
abbrev Py := Except PyErr

open Matrix

variable {n m : Type} [Fintype n] [DecidableEq n]

/-- `numpy.linalg.solve(A, B)` for a matrix right-hand side: `LinAlgError` when `A` is singular. -/
noncomputable def npSolve (A : Matrix n n ℂ) (B : Matrix n m ℂ) : Py (Matrix n m ℂ) :=
  open Classical in if A.det = 0 then .error .linAlg else .ok (A⁻¹ * B)

/-- `numpy.linalg.solve(A, b)` for a vector right-hand side. -/
noncomputable def npSolveVec (A : Matrix n n ℂ) (b : n → ℂ) : Py (n → ℂ) :=
  open Classical in if A.det = 0 then .error .linAlg else .ok (A⁻¹ *ᵥ b)

/-- `numpy.linalg.inv(A)`. -/
noncomputable def npInv (A : Matrix n n ℂ) : Py (Matrix n n ℂ) :=
  open Classical in if A.det = 0 then .error .linAlg else .ok A⁻¹

/-- numpy broadcasting `Q / lam` of a matrix by a row vector: column `j` is divided by `lam j`.
Division by zero makes numpy produce `inf`/`nan`; the model reports `nonFinite`. -/
noncomputable def npDivCols (Q : Matrix m n ℂ) (lam : n → ℂ) : Py (Matrix m n ℂ) :=
  open Classical in if ∃ j, lam j = 0 then .error .nonFinite else .ok (Matrix.of fun i j => Q i j / lam j)

/-- Principal complex square root: `numpy.sqrt` on complex input, `cmath.sqrt`,
`numpy.lib.scimath.sqrt`.  (Signed zeros on the branch cut are not modelled: the imaginary part of
a negative real argument is taken to be `+0`.) -/
noncomputable def csqrt (z : ℂ) : ℂ := z ^ (1 / 2 : ℂ)

/-- numpy index semantics on an axis of length `len`: in-range indices as they are, negative ones
wrapped once, everything else `IndexError`. -/
def npIndex (len : ℕ) (i : ℤ) : Py (Fin len) :=
  if h : 0 ≤ i ∧ i < len then .ok ⟨i.toNat, by omega⟩
  else if h' : -(len : ℤ) ≤ i ∧ i < 0 then .ok ⟨(i + len).toNat, by omega⟩
  else .error .index

/-- Python `l[i]` for a list and any integer `i` (negative indices count from the end). -/
def pyGetZ {α : Type} (l : List α) (i : ℤ) : Py α := do
  let k ← npIndex l.length i
  return l.get k

/-- Filling an array entry by entry in index order, each entry being a computation: the first
exception, or the array. -/
def pyFinM {α : Type} : {n : ℕ} → (Fin n → Py α) → Py (Fin n → α)
  | 0, _ => .ok fun i => i.elim0
  | _ + 1, f => do
    let a ← f 0
    let v ← pyFinM fun i => f i.succ
    return Fin.cons a v

/-- `assert c` / `if not c: raise e`. -/
def pyCheck (c : Prop) [Decidable c] (e : PyErr) : Py Unit := if c then .ok () else .error e

/-- An optional attribute: `None` used as a value is a `TypeError`. -/
def pySome {α : Type} : Option α → Py α
  | some a => .ok a
  | none => .error .type

end Khepri
