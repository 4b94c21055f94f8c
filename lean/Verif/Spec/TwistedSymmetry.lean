import Verif.Spec.Embed
import Verif.Spec.Mirror

/-!
# Equivalent stacks of layers of two lattices, and moved islands (specification)
-/

namespace Khepri

/-- A shape moved by `v`. -/
def Shape.move (v : R2) : Shape → Shape
  | .rectangle a b c d => .rectangle (a + v.1) (b + v.2) (c + v.1) (d + v.2)
  | .disc a b r => .disc (a + v.1) (b + v.2) r
  | .ellipse x y a b rot => .ellipse (x + v.1) (y + v.2) a b rot

/-- The pattern `f'` is the pattern `f` with all its islands moved by `v`. -/
def Form.Moved (v : R2) (f f' : Form) : Prop :=
  match f with
  | .uniform eps => f' = .uniform eps
  | .analytical islands host => f' = .analytical (islands.map fun i => ⟨i.shape.move v, i.eps⟩) host
  | _ => False

/-- How the patterns of a lattice are displaced: the pixmaps rolled by fractions of the two periods, or the islands moved
by a vector. -/
inductive Displacement
  | fractions (t : R2)
  | vector (v : R2)

/-- The pattern `f'` is the displaced pattern `f`. -/
def Form.Displaced : Displacement → Form → Form → Prop
  | .fractions t => Form.Shifted t
  | .vector v => Form.Moved v

/-- Expansions for which the displacement is considered: any one for pixmaps; for islands, as many orders along one
vector as along the other or a single order along one of them, and no period so long that a non-zero order would pass
for a zero one. -/
def Displacement.Fits {M : ℕ} (e : Expansion M) : Displacement → Prop
  | .fractions _ => True
  | .vector _ => Periods e.reciprocal ∧ (e.pw.1 = e.pw.2 ∨ e.pw.1 = 1 ∨ e.pw.2 = 1)

namespace TwistedLayer

variable {M : ℕ}

/-- The layers `l` and `l'` are of the same lattice and their patterns correspond: by `A` if they are of the first
lattice, by `B` if they are of the second one.  Their depths may differ. -/
def Corresponds (A B : Form → Form → Prop) : TwistedLayer M → TwistedLayer M → Prop
  | uniform eps _, uniform eps' _ => eps' = eps
  | first l, first l' => A l.form l'.form
  | second l, second l' => B l.form l'.form
  | _, _ => False

/-- The same layer when the two lattices are listed in the other order. -/
def swap : TwistedLayer M → TwistedLayer M
  | uniform eps d => uniform eps d
  | first l => second l
  | second l => first l

end TwistedLayer

/-- The turn of the plane by the angle `a`. -/
noncomputable def Turn.by (a : ℝ) : Turn := ⟨Real.cos a, Real.sin a, 1, Real.cos_sq_add_sin_sq a, by norm_num⟩

end Khepri
