import Verif.Spec.TmatReciprocity
import Verif.Spec.TwistedSymmetry

/-!
# Symmetries of the T-matrix formulation (specification)
-/

namespace Khepri

open Matrix Complex

section
variable {g : Type}

/-- The order of a wave or of a component of a field. -/
def waveOrder : (g ⊕ g) ⊕ (g ⊕ g) → g := Sum.elim (Sum.elim id id) (Sum.elim id id)

/-- The same wave of another order. -/
def onOrders (ρ : g → g) : (g ⊕ g) ⊕ (g ⊕ g) → (g ⊕ g) ⊕ (g ⊕ g) := Sum.map (Sum.map ρ ρ) (Sum.map ρ ρ)

/-- The wave of order `k` becomes the wave of order `ρ k`, times `d k` (`ρ` undoes itself). -/
def carry (ρ : g → g) (d : g → ℂ) (p : (g ⊕ g) ⊕ (g ⊕ g) → ℂ) : (g ⊕ g) ⊕ (g ⊕ g) → ℂ :=
  fun x => d (ρ (waveOrder x)) * p (onOrders ρ x)

/-- The S-matrix `S'` is `S` for the waves carried over. -/
def TCarried (ρ : g → g) (d : g → ℂ) (S S' : Matrix ((g ⊕ g) ⊕ (g ⊕ g)) ((g ⊕ g) ⊕ (g ⊕ g)) ℂ) : Prop :=
  ∀ x y, S' (onOrders ρ x) (onOrders ρ y) * d (waveOrder y) = d (waveOrder x) * S x y

end

/-- An island moved by `v`. -/
def TShape.move (v : R2) : TShape → TShape
  | .uniform => .uniform
  | .shape s => .shape (s.move v)

/-- A shape turned by half a turn about the origin: both corners, or the center, become their opposites. -/
def Shape.halfTurn : Shape → Shape
  | .rectangle a b c d => .rectangle (-a) (-b) (-c) (-d)
  | .disc a b r => .disc (-a) (-b) r
  | .ellipse x y a b rot => .ellipse (-x) (-y) a b rot

/-- An island turned by half a turn about the origin. -/
def TShape.halfTurn : TShape → TShape
  | .uniform => .uniform
  | .shape s => .shape s.halfTurn

/-- The phase a wave of order `k` takes when the pattern is moved by `v`. -/
noncomputable def TLattice.movePhase (l : TLattice) (v : R2) (k : Fin (l.shape.1 * l.shape.2)) : ℂ :=
  exp (-(I * (flatT l.shape l.gx k * v.1 + flatT l.shape l.gy k * v.2)))

/-- The waves that come in are in the specular order only, `p // 2, q // 2` on the grid, as `incident` makes them. -/
def Specular (l : TLattice) (pin : TIdx l.shape → ℂ) : Prop :=
  ∀ x, (waveOrder x).val ≠ l.shape.1 / 2 + l.shape.1 * (l.shape.2 / 2) → pin x = 0

end Khepri
