import Verif.Spec.TwistedSymmetry
import Verif.Spec.Reciprocity

/-!
# Reciprocity of stacks of layers of two lattices (specification)
-/

namespace Khepri

/-- The two layers are the same: of the same lattice, pattern and depth. -/
def TwistedLayer.Same {M : ℕ} (l l' : TwistedLayer M) : Prop :=
  l.Corresponds (fun f f' => f' = f) (fun f f' => f' = f) l' ∧ l'.depth = l.depth

end Khepri
