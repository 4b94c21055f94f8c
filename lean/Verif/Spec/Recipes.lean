import Verif.Spec.Symmetry
import Verif.Model.Recipes

/-!
# Devices assembled by hand from S-matrices (specification)
-/

namespace Khepri

/-- `T` is what some sequence of `redheffer_product` calls, bracketed in any way, makes of the S-matrices `l` kept in
their order. -/
inductive Assembled {n : Type} [Fintype n] [DecidableEq n] : List (SMat n) → SMat n → Prop
  | one (S : SMat n) : Assembled [S] S
  | join {l l' : List (SMat n)} {A B C : SMat n} : Assembled l A → Assembled l' B → redheffer A B = .ok C →
      Assembled (l ++ l') C

/-- The S-matrix the stand-alone functions give for the layer. -/
def StandAlone {N : ℕ} (lib : NumLib) (kp : ℂ × ℂ) (wl : ℝ) (l : Layer N) (S : SMat (Fin N ⊕ Fin N)) : Prop :=
  ∃ r : LayerScattering N, r.S = S ∧ match l.form with
    | .uniform eps => scatteringUniformLayer l.expansion kp wl eps l.depth = .ok r
    | .fft map => scatteringStructuredLayer lib l.expansion kp wl map l.depth = .ok r
    | _ => False

end Khepri
