import Verif.Spec.Symmetry
import Verif.Spec.Twisted

/-!
# Devices that describe the same object with more orders (specification)
-/

namespace Khepri

variable {M : ℕ}

/-- A complete calculation on a stack of layers of two lattices: `DeviceRun` for a crystal of the joint space `se`. -/
def TwistedRun (lib : NumLib) (se : SumExpansion M) (c : Crystal (M * M)) (stack : List String)
    (m : Bool ⊕ List Bool) (Ls : List (TwistedLayer M)) (er et wl : ℝ) (te tm : ℂ) (theta phi : ℝ)
    (kpo : Option (ℂ × ℂ)) (kp : R2) (c3 : Crystal (M * M)) : Prop :=
  TwistedDevice se c stack m Ls er et ∧ ∃ c1 c2 order src, c.setDevice stack m = .ok c1 ∧
    c1.setSource wl te tm theta phi kpo = .ok c2 ∧ SetOrder ("Sref" :: (stack ++ ["Strans"])) order ∧
    c2.solve lib order = .ok c3 ∧ c2.source = some src ∧ src.kp = (↑kp.1, ↑kp.2)

/-- The layer of a stack of two lattices describes the layer `l` of the first lattice: it is that layer, or both are
uniform. -/
def TwistedLayer.AsFirst (l : Layer M) : TwistedLayer M → Prop
  | .uniform eps d => l.form = .uniform eps ∧ d = l.depth
  | .first a => a.form = l.form ∧ a.depth = l.depth
  | .second a => (∃ eps, a.form = .uniform eps ∧ l.form = .uniform eps) ∧ a.depth = l.depth

/-- The layer of a stack of two lattices describes the layer `l` of the second lattice. -/
def TwistedLayer.AsSecond (l : Layer M) : TwistedLayer M → Prop
  | .uniform eps d => l.form = .uniform eps ∧ d = l.depth
  | .first a => (∃ eps, a.form = .uniform eps ∧ l.form = .uniform eps) ∧ a.depth = l.depth
  | .second a => a.form = l.form ∧ a.depth = l.depth

end Khepri
