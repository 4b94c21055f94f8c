import Verif.Model.Numpy

/-!
# `khepri/alternative.py`: S-matrix algebra and layer S-matrices

A block S-matrix `np.array([[S11, S12], [S21, S22]])` is a structure with four square blocks over an
arbitrary finite index type `n` (in the code `n` has `2*prod(pw)` elements: the x and y components
of every diffraction order).
-/

namespace Khepri

open Matrix

/-- A block scattering matrix (`alternative.py:6-9`). -/
@[ext] structure SMat (n : Type) where
  s11 : Matrix n n ℂ
  s12 : Matrix n n ℂ
  s21 : Matrix n n ℂ
  s22 : Matrix n n ℂ

section Algebra
variable {n : Type} [Fintype n] [DecidableEq n]

/-- `redheffer_product(SA, SB)`, `alternative.py:19-30`, statement by statement. -/
noncomputable def redheffer (SA SB : SMat n) : Py (SMat n) := do
  let D := 1 - SB.s11 * SA.s22
  let F := 1 - SA.s22 * SB.s11
  let x11 ← npSolve D SB.s11
  let S11 := SA.s11 + SA.s12 * x11 * SA.s21
  let x12 ← npSolve D SB.s12
  let S12 := SA.s12 * x12
  let x21 ← npSolve F SA.s21
  let S21 := SB.s21 * x21
  let x22 ← npSolve F SA.s22
  let S22 := SB.s22 + SB.s21 * x22 * SB.s12
  return ⟨S11, S12, S21, S22⟩

/-- `scattering_identity(pw, block=True)`, `alternative.py:220-226`. -/
def scatteringIdentity (n : Type) [DecidableEq n] : SMat n := ⟨0, 1, 1, 0⟩

/-- `build_scatmat(WI, VI, W0, V0, lambdas, dbar, k0)`, `alternative.py:181-195`. -/
noncomputable def buildScatmat (WI VI W0 V0 : Matrix n n ℂ) (lam : n → ℂ) (dbar k0 : ℝ) :
    Py (SMat n) := do
  let t1 ← npSolve WI W0
  let t2 ← npSolve VI V0
  let A := t1 + t2
  let B := t1 - t2
  let X : Matrix n n ℂ := Matrix.diagonal fun i => Complex.exp (-lam i * dbar * k0)
  let aX ← npSolve A X
  let T := A - X * B * aX * B
  let S11 ← npSolve T (X * B * aX * A - B)
  let aB ← npSolve A B
  let S12 ← npSolve T (X * (A - B * aB))
  return ⟨S11, S12, S12, S11⟩

/-- Last lines of `scattering_reflection` (`alternative.py:50-56`): from the modes of the outer
medium (`Wref`, `Vref`) and of the gap (`W0`, `V0`) to the S-matrix of the entrance interface. -/
noncomputable def reflectionScatmat (W0 V0 Wref Vref : Matrix n n ℂ) : Py (SMat n) := do
  let a ← npSolve W0 Wref
  let b ← npSolve V0 Vref
  let A := a + b
  let B := a - b
  let aB ← npSolve A B
  let S11 := -aB
  let iA ← npInv A
  let S12 := (2 : ℂ) • iA
  let S21 := (0.5 : ℂ) • (A - B * aB)
  let S22 := B * iA
  return ⟨S11, S12, S21, S22⟩

/-- Last lines of `scattering_transmission` (`alternative.py:76-82`). -/
noncomputable def transmissionScatmat (W0 V0 Wtrans Vtrans : Matrix n n ℂ) : Py (SMat n) := do
  let a ← npSolve W0 Wtrans
  let b ← npSolve V0 Vtrans
  let A := a + b
  let B := a - b
  let iA ← npInv A
  let S11 := B * iA
  let aB ← npSolve A B
  let S12 := (0.5 : ℂ) • (A - B * aB)
  let S21 := (2 : ℂ) • iA
  let S22 := -aB
  return ⟨S11, S12, S21, S22⟩

end Algebra

section Modes
variable {ι : Type} [Fintype ι] [DecidableEq ι]

/-- The 2×2 block matrix `[[KX KY, e I - KX²], [KY² - e I, -KY KX]]` of diagonal blocks, as written
in `alternative.py:38-41`, `64-67`, `89` (with `e = er*ur`, `KX = diag kx`, `KY = diag ky`; products
and element-wise products of diagonal matrices coincide). -/
noncomputable def qBlock (kx ky : ι → ℂ) (e : ℂ) : Matrix (ι ⊕ ι) (ι ⊕ ι) ℂ :=
  let KX := Matrix.diagonal kx
  let KY := Matrix.diagonal ky
  Matrix.fromBlocks (KX * KY) (e • (1 : Matrix ι ι ℂ) - KX * KX)
    (KY * KY - e • (1 : Matrix ι ι ℂ)) (-(KY * KX))

/-- The branch choice of `alternative.py:93-96` and `146-149`: `-1j*sqrt(-z)` where `Re z < 0`,
`sqrt(z)` elsewhere. -/
noncomputable def kzMasked (z : ℂ) : ℂ :=
  open Classical in if z.re < 0 then -Complex.I * csqrt (-z) else csqrt z

/-- `np.hstack((v, v))`. -/
def stack2 (v : ι → ℂ) : ι ⊕ ι → ℂ := Sum.elim v v

/-- `free_space_eigenmodes(KX, KY)`, `alternative.py:84-99`. -/
noncomputable def freeSpaceEigenmodes (kx ky : ι → ℂ) :
    Py (Matrix (ι ⊕ ι) (ι ⊕ ι) ℂ × Matrix (ι ⊕ ι) (ι ⊕ ι) ℂ) := do
  let Q := qBlock kx ky 1
  let kz : ι → ℂ := fun i => kzMasked (1 - kx i ^ 2 - ky i ^ 2)
  let lam := stack2 fun i => Complex.I * kz i
  let V ← npDivCols Q lam
  return (1, V)

/-- `solve_uniform_layer(Kx, Ky, er, m_r=1)`, `alternative.py:130-156`, called with the default
`m_r = 1`.  `P = (1/er) * block`, `Q = (er/m_r) * P`. -/
noncomputable def solveUniformLayer (kx ky : ι → ℂ) (er : ℂ) :
    Py (Matrix (ι ⊕ ι) (ι ⊕ ι) ℂ × Matrix (ι ⊕ ι) (ι ⊕ ι) ℂ × (ι ⊕ ι → ℂ)) := do
  if er = 0 then throw .nonFinite      -- `1/er`: ZeroDivisionError / inf
  let P := (1 / er) • qBlock kx ky er
  let Q := (er / 1) • P
  let kz : ι → ℂ := fun i => kzMasked (er - kx i ^ 2 - ky i ^ 2)
  let lam := stack2 fun i => Complex.I * kz i
  let V ← npDivCols Q lam
  return (1, V, lam)

/-- Modes of an outer medium: first lines of `scattering_reflection` (`alternative.py:33-49`) and,
identically, of `scattering_transmission` (`alternative.py:60-75`), with the default `ur = 1`. -/
noncomputable def halfSpaceModes (kx ky : ι → ℂ) (er : ℂ) :
    Py (Matrix (ι ⊕ ι) (ι ⊕ ι) ℂ × Matrix (ι ⊕ ι) (ι ⊕ ι) ℂ × (ι ⊕ ι → ℂ)) := do
  let Qref := qBlock kx ky er
  let kz : ι → ℂ := fun i => star (csqrt (er - kx i ^ 2 - ky i ^ 2))
  let lam := stack2 fun i => Complex.I * kz i
  let V ← npDivCols Qref lam
  return (1, V, lam)

/-- `scattering_reflection(KX, KY, W0, V0, er)`, `alternative.py:32-56`. -/
noncomputable def scatteringReflection (kx ky : ι → ℂ) (W0 V0 : Matrix (ι ⊕ ι) (ι ⊕ ι) ℂ) (er : ℂ) :
    Py (SMat (ι ⊕ ι) × Matrix (ι ⊕ ι) (ι ⊕ ι) ℂ × Matrix (ι ⊕ ι) (ι ⊕ ι) ℂ × (ι ⊕ ι → ℂ)) := do
  let (W, V, lam) ← halfSpaceModes kx ky er
  let S ← reflectionScatmat W0 V0 W V
  return (S, W, V, lam)

/-- `scattering_transmission(KX, KY, W0, V0, er)`, `alternative.py:59-82`. -/
noncomputable def scatteringTransmission (kx ky : ι → ℂ) (W0 V0 : Matrix (ι ⊕ ι) (ι ⊕ ι) ℂ)
    (er : ℂ) :
    Py (SMat (ι ⊕ ι) × Matrix (ι ⊕ ι) (ι ⊕ ι) ℂ × Matrix (ι ⊕ ι) (ι ⊕ ι) ℂ × (ι ⊕ ι → ℂ)) := do
  let (W, V, lam) ← halfSpaceModes kx ky er
  let S ← transmissionScatmat W0 V0 W V
  return (S, W, V, lam)

/-- The matrix `Pi` of `solve_structured_layer` (`alternative.py:163-166`). -/
noncomputable def structuredP (kx ky : ι → ℂ) (C : Matrix ι ι ℂ) :
    Py (Matrix (ι ⊕ ι) (ι ⊕ ι) ℂ) := do
  let KX := Matrix.diagonal kx
  let KY := Matrix.diagonal ky
  let cY ← npSolve C KY
  let cX ← npSolve C KX
  return Matrix.fromBlocks (KX * cY) (1 - KX * cX) (KY * cY - 1) (-(KY * cX))

/-- The matrix `Qi` of `solve_structured_layer` (`alternative.py:167-170`). -/
noncomputable def structuredQ (kx ky : ι → ℂ) (C : Matrix ι ι ℂ) : Matrix (ι ⊕ ι) (ι ⊕ ι) ℂ :=
  let KX := Matrix.diagonal kx
  let KY := Matrix.diagonal ky
  Matrix.fromBlocks (KX * KY) (C - KX * KX) (KY * KY - C) (-(KY * KX))

/-- `numpy.linalg.eig` as a parameter: eigenvalues and the matrix of right eigenvectors. -/
abbrev EigSolver (n : Type) := Matrix n n ℂ → Py ((n → ℂ) × Matrix n n ℂ)

/-- `solve_structured_layer(kx, ky, C)`, `alternative.py:158-178`. -/
noncomputable def solveStructuredLayer (eig : EigSolver (ι ⊕ ι)) (kx ky : ι → ℂ)
    (C : Matrix ι ι ℂ) :
    Py (Matrix (ι ⊕ ι) (ι ⊕ ι) ℂ × Matrix (ι ⊕ ι) (ι ⊕ ι) ℂ × (ι ⊕ ι → ℂ)) := do
  let P ← structuredP kx ky C
  let Q := structuredQ kx ky C
  let (lam2, W) ← eig (P * Q)
  let lam : ι ⊕ ι → ℂ := fun i => csqrt (lam2 i)
  let V ← npDivCols (Q * W) lam
  return (W, V, lam)

end Modes

end Khepri
