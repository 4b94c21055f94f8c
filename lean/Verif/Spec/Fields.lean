import Verif.Spec.Scattering
import Mathlib.Analysis.Normed.Algebra.MatrixExponential

/-!
# Tangential fields (specification)

What the amplitudes mean: tangential electric and magnetic fields on a plane, the field of a
superposition of modes, propagation of modes through a slab, and Maxwell's equations in Fourier
space for a slab, `dE/dz = k0 P H`, `dH/dz = k0 Q E`.
-/

namespace Khepri

open Matrix

/-- Tangential fields (all Fourier components) on a plane. -/
@[ext] structure Tang (n : Type) where
  E : n → ℂ
  H : n → ℂ

variable {n : Type} [Fintype n]

/-- The field of mode amplitudes `p` in a medium with electric modes `W` and magnetic modes `V`. -/
def fieldOf (W V : Matrix n n ℂ) (p : Port n) : Tang n :=
  ⟨W *ᵥ (p.fwd + p.bwd), V *ᵥ (p.bwd - p.fwd)⟩

/-- Field `F` on the left face of a slab becomes `G` on the right face, the slab having modes
`W, V` with propagation constants `lam` and optical thickness `t = k0 * depth`: forward modes are
multiplied by `exp (-lam t)`, backward ones by `exp (lam t)`. -/
def ModalTransfer (W V : Matrix n n ℂ) (lam : n → ℂ) (t : ℝ) (F G : Tang n) : Prop :=
  ∃ a b : Port n, F = fieldOf W V a ∧ G = fieldOf W V b ∧
    (∀ i, b.fwd i = Complex.exp (-(lam i * t)) * a.fwd i) ∧
    (∀ i, b.bwd i = Complex.exp (lam i * t) * a.bwd i)

/-- The boundary-value problem of one layer between two slices of a gap medium with modes `W0, V0`:
`p` and `q` are the gap amplitudes on its left and right faces. -/
def LayerBVP (W V W0 V0 : Matrix n n ℂ) (lam : n → ℂ) (t : ℝ) (p q : Port n) : Prop :=
  ModalTransfer W V lam t (fieldOf W0 V0 p) (fieldOf W0 V0 q)

/-- A layer by its modes and optical thickness. -/
structure ModeLayer (n : Type) where
  W : Matrix n n ℂ
  V : Matrix n n ℂ
  lam : n → ℂ
  t : ℝ

/-- A field that crosses a list of layers, continuous at every interface between them. -/
def FieldChain : List (ModeLayer n) → Tang n → Tang n → Prop
  | [], F, G => F = G
  | L :: l, F, G => ∃ K, ModalTransfer L.W L.V L.lam L.t F K ∧ FieldChain l K G

variable [DecidableEq n]

/-- What `numpy.linalg.eig` guarantees about what it returns. -/
def EigContract (eig : EigSolver n) : Prop :=
  ∀ M lam2 W, eig M = .ok (lam2, W) → M * W = W * diagonal lam2

/-- Maxwell's equations through a slab: `(E, H)` on the right face is
`exp (t [[0, P], [Q, 0]])` applied to `(E, H)` on the left face. -/
def MaxwellTransfer (P Q : Matrix n n ℂ) (t : ℝ) (F G : Tang n) : Prop :=
  Sum.elim G.E G.H = NormedSpace.exp ((t : ℂ) • fromBlocks 0 P Q 0) *ᵥ Sum.elim F.E F.H

/-- A field that solves Maxwell's equations in every layer `(P, Q, t)` of a list and is continuous at
every interface. -/
def MaxwellChain : List (Matrix n n ℂ × Matrix n n ℂ × ℝ) → Tang n → Tang n → Prop
  | [], F, G => F = G
  | L :: l, F, G => ∃ K, MaxwellTransfer L.1 L.2.1 L.2.2 F K ∧ MaxwellChain l K G

end Khepri
