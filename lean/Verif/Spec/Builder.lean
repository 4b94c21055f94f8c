import Verif.Model.Builder

/-!
# Building crystals (specification)
-/

namespace Khepri

open Crystal

/-- The name a call gives to its layer. -/
def Crystal.Add.name : Add → String
  | .uniform n _ _ => n
  | .pixmap n _ _ => n
  | .pixmapOrUniform n _ _ => n
  | .analytical n _ _ _ => n

/-- The depth a call gives to its layer. -/
def Crystal.Add.depth : Add → ℝ
  | .uniform _ _ d => d
  | .pixmap _ _ d => d
  | .pixmapOrUniform _ _ d => d
  | .analytical _ _ _ d => d

/-- The description of the medium a call asks for: a pixmap of one value may be treated as a uniform medium. -/
def Crystal.Add.Asks : Add → Form → Prop
  | .uniform _ eps _, f => f = .uniform eps
  | .pixmap _ p _, f => f = .fft p
  | .pixmapOrUniform _ p _, f =>
    (∃ v, (∀ i j, p.val i j = v) ∧ f = .uniform v) ∨ ((¬ ∃ v, ∀ i j, p.val i j = v) ∧ f = .fft p)
  | .analytical _ islands host _, f => f = .analytical islands host

/-- The call that decides what a name means: the last one that uses it. -/
def lastAdd (l : List Add) (x : String) : Option Add := l.reverse.find? fun a => a.name = x

end Khepri
