import Verif.Spec.Multilayer
import Verif.Spec.Tmat

/-!
# Stacks of uniform layers of the T-matrix interface (specification)

How a user builds one: an S-matrix per layer, cascades of them in any grouping, and the interface to the emergence medium
last.  The textbook coefficients are those of `Spec/Multilayer.lean`.
-/

namespace Khepri

/-- S-matrices of the cascades of uniform layers `(permittivity, depth)`: a layer without islands, or whose islands are
`"uniform"` or of the permittivity of their host, cut in any number of slices; and two cascades joined. -/
inductive TCascade (jv1 : ℝ → ℝ) (l : TLattice) (wl : ℝ) (kp : ℂ × ℂ) :
    List (ℂ × ℝ) → Matrix (TIdx l.shape) (TIdx l.shape) ℂ → Prop
  | layer {islands : List (TShape × ℂ)} {host : ℂ} {depth : ℝ} {slices : ℕ} {S : Matrix (TIdx l.shape) (TIdx l.shape) ℂ} :
      (∀ d ∈ islands, d.1 = .uniform ∨ d.2 = host) → tmatScattering jv1 l islands host wl kp depth slices = .ok S →
      TCascade jv1 l wl kp [(host, depth)] S
  | join {xs ys : List (ℂ × ℝ)} {A B S : Matrix (TIdx l.shape) (TIdx l.shape) ℂ} :
      TCascade jv1 l wl kp xs A → TCascade jv1 l wl kp ys B → multS A B = .ok S → TCascade jv1 l wl kp (xs ++ ys) S

/-- S-matrices of the devices made of such a cascade, or of nothing, on the emergence medium. -/
inductive TStack (jv1 : ℝ → ℝ) (l : TLattice) (wl : ℝ) (kp : ℂ × ℂ) :
    List (ℂ × ℝ) → Matrix (TIdx l.shape) (TIdx l.shape) ℂ → Prop
  | bare {S : Matrix (TIdx l.shape) (TIdx l.shape) ℂ} : tmatInterface l wl kp = .ok S → TStack jv1 l wl kp [] S
  | layers {xs : List (ℂ × ℝ)} {A B S : Matrix (TIdx l.shape) (TIdx l.shape) ℂ} :
      TCascade jv1 l wl kp xs A → tmatInterface l wl kp = .ok B → multS A B = .ok S → TStack jv1 l wl kp xs S

/-- The same layers in the other time convention: conjugate permittivities. -/
noncomputable def conjLayers (data : List (ℂ × ℝ)) : List (ℂ × ℝ) := data.map fun x => (star x.1, x.2)

/-- In-plane wave number of an order, squared, in units of the wave number in vacuum. -/
noncomputable def TLattice.inPlane (l : TLattice) (wl : ℝ) (kp : ℂ × ℂ) (k : Fin (l.shape.1 * l.shape.2)) : ℝ :=
  (‖(l.wave kp k).1‖ ^ 2 + ‖(l.wave kp k).2‖ ^ 2) / (2 * Real.pi / wl) ^ 2

end Khepri
