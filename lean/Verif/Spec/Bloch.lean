import Verif.Spec.Tmat

/-!
# Bloch modes of a periodic structure (specification)
-/

namespace Khepri

open Matrix

section
variable {n : Type} [Fintype n] [DecidableEq n]

/-- `x` are the amplitudes, on one side of a cell of S-matrix `S`, of a mode that the cell multiplies by `w`. -/
def BlochMode (S : Matrix (n ⊕ n) (n ⊕ n) ℂ) (w : ℂ) (x : n ⊕ n → ℂ) : Prop := x ≠ 0 ∧ TScatters S x (w • x)

/-- The contract of a generalised eigenvalue solver: it returns the solutions of `a x = w b x`, `x ≠ 0`, of a regular
pencil. -/
def GenEigContract {m : Type} [Fintype m] [DecidableEq m] (eig : Matrix m m ℂ → Matrix m m ℂ → List ℂ) : Prop :=
  ∀ A B : Matrix m m ℂ, (∃ s : ℂ, (A - s • B).det ≠ 0) → ∀ w : ℂ, w ∈ eig A B ↔ ∃ x, x ≠ 0 ∧ A *ᵥ x = w • (B *ᵥ x)

end

end Khepri
