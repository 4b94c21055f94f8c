import Verif.Model.Alternative

/-!
# What an S-matrix means (specification)

Independent of how S-matrices are computed: wave amplitudes on two planes, and chains of elements.
-/

namespace Khepri

open Matrix

/-- Wave amplitudes on a plane: `fwd` travels to the right (towards emergence), `bwd` to the left. -/
@[ext] structure Port (n : Type) where
  fwd : n → ℂ
  bwd : n → ℂ

variable {n : Type} [Fintype n]

/-- The element described by `S`, with `p` on its left face and `q` on its right face:
what leaves it (`p.bwd`, `q.fwd`) is `S` applied to what enters it (`p.fwd`, `q.bwd`). -/
def Scatters (S : SMat n) (p q : Port n) : Prop :=
  p.bwd = S.s11 *ᵥ p.fwd + S.s12 *ᵥ q.bwd ∧ q.fwd = S.s21 *ᵥ p.fwd + S.s22 *ᵥ q.bwd

/-- A chain of elements from left to right: there are amplitudes on every intermediate plane. -/
def Chain : List (SMat n) → Port n → Port n → Prop
  | [], p, q => p = q
  | S :: l, p, q => ∃ m, Scatters S p m ∧ Chain l m q

/-- A wave that circulates between `A` (on the left) and `B` (on the right) by itself, with nothing
coming in from outside. -/
def Circulates (A B : SMat n) (x : Port n) : Prop :=
  x.fwd = A.s22 *ᵥ x.bwd ∧ x.bwd = B.s11 *ᵥ x.fwd

/-- The same element seen from the other side: left and right exchanged. -/
def SMat.flip (S : SMat n) : SMat n := ⟨S.s22, S.s21, S.s12, S.s11⟩

/-- Power carried by an amplitude vector, each mode `i` being normalised to carry `w i`. -/
noncomputable def power (w : n → ℝ) (v : n → ℂ) : ℝ := ∑ i, w i * ‖v i‖ ^ 2

/-- What leaves the element carries as much power as what enters it. -/
def Lossless (w : n → ℝ) (S : SMat n) : Prop :=
  ∀ p q, Scatters S p q → power w p.bwd + power w q.fwd = power w p.fwd + power w q.bwd

/-- What leaves the element carries at most as much power as what enters it. -/
def Passive (w : n → ℝ) (S : SMat n) : Prop :=
  ∀ p q, Scatters S p q → power w p.bwd + power w q.fwd ≤ power w p.fwd + power w q.bwd

end Khepri
