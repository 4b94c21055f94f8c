import Verif.Model.Tmat

/-!
# `khepri/eigentricks.py`: Bloch modes from an S-matrix

S-matrices have `4 ng` rows and columns, in two halves of `2 ng` (index `n`).  Infinite generalised eigenvalues
(`nan` and `inf` in numpy) are left out: the comparisons of `band_structure` drop them.
-/

namespace Khepri

open Matrix

section
variable {n : Type} [Fintype n] [DecidableEq n]

/-- `scattering_splitlr(S)`, `eigentricks.py:5-22`. -/
def scatteringSplitlr (S : Matrix (n ⊕ n) (n ⊕ n) ℂ) : Matrix (n ⊕ n) (n ⊕ n) ℂ × Matrix (n ⊕ n) (n ⊕ n) ℂ :=
  (fromBlocks S.toBlocks₁₁ 0 S.toBlocks₂₁ (-1), fromBlocks 1 (-S.toBlocks₁₂) 0 (-S.toBlocks₂₂))

/-- `scattering_det(S)`, `eigentricks.py:24-28`. -/
noncomputable def scatteringDet (S : Matrix (n ⊕ n) (n ⊕ n) ℂ) : Py ℂ := do
  let i ← npInv S.toBlocks₂₂
  return (S.toBlocks₁₁ - S.toBlocks₁₂ * i * S.toBlocks₂₁).det * S.toBlocks₂₂.det

/-- The eigenvalues `scipy.linalg.eig(a, b)` returns (`a x = w b x`). -/
abbrev GenEigSolver (n : Type) := Matrix n n ℂ → Matrix n n ℂ → List ℂ

/-- The eigenvalues of `scattering_eigenvalues(S)`, `eigentricks.py:29-40` (there is no `nan` in exact arithmetic). -/
def scatteringEigenvalues (eig : GenEigSolver (n ⊕ n)) (S : Matrix (n ⊕ n) (n ⊕ n) ℂ) : List ℂ :=
  eig (scatteringSplitlr S).1 (scatteringSplitlr S).2

/-- `on_shell(eigenvalues, tol)`, `eigentricks.py:42-43`, one element. -/
def onShell (w : ℂ) (tol : ℝ) : Prop := |‖w‖ - 1| ≤ tol

/-- `band_structure(S)`, `eigentricks.py:47-55`. -/
noncomputable def bandStructure (eig : GenEigSolver (n ⊕ n)) (S : Matrix (n ⊕ n) (n ⊕ n) ℂ) : List ℝ :=
  open Classical in
  let w := (scatteringEigenvalues eig S).map Complex.re
  let w := w.filter fun x => 0 < x
  let w := w.filter fun x => x < 1
  w.filter fun x => onShell x (1 / 10 ^ 10)

end

end Khepri
