import Verif.Spec.Tmat
import Verif.Spec.Laid

/-!
# Losses in the T-matrix formulation (specification)
-/

namespace Khepri

open Matrix Complex

section
variable {g : Type} [Fintype g]

/-- An S-matrix between media whose fields are `Vl` and `Vr` times the amplitudes: no more power leaves than enters. -/
def TPassive (Vl Vr S : Matrix ((g ⊕ g) ⊕ (g ⊕ g)) ((g ⊕ g) ⊕ (g ⊕ g)) ℂ) : Prop :=
  ∀ u v, TScatters S u v → TPower (Vr *ᵥ v) ≤ TPower (Vl *ᵥ u)

end

/-- Whatever enters loses power. -/
def TLossyPart {g : Type} [Fintype g] (Vl Vr S : Matrix ((g ⊕ g) ⊕ (g ⊕ g)) ((g ⊕ g) ⊕ (g ⊕ g)) ℂ) : Prop :=
  ∀ u v, TScatters S u v → u ≠ 0 → TPower (Vr *ᵥ v) < TPower (Vl *ᵥ u)

/-- Waves on the left come with waves on the right. -/
def TThrough {n : Type} [Fintype n] (S : Matrix (n ⊕ n) (n ⊕ n) ℂ) : Prop := ∀ u, TScatters S u 0 → u = 0

/-- The islands of a layer, `f` of their permittivity inside (islands named `uniform` change nothing). -/
def tPattern (f : ℂ → ℂ) (islands : List (TShape × ℂ)) : List Island :=
  islands.filterMap fun d => match d.1 with
    | .uniform => none
    | .shape s => some ⟨s, f d.2⟩

/-- Islands laid out without overlap in one cell, in media whose losses are at least `δ` (imaginary part of the
permittivity) and `δ'` (minus that of its inverse). -/
structure LossyIslands (lat : R2 × R2) (islands : List (TShape × ℂ)) (host : ℂ) (δ δ' : ℝ) : Prop where
  laid : Laid lat (tPattern id islands)
  host : δ ≤ host.im ∧ (1 / host).im ≤ -δ'
  islands : ∀ d ∈ islands, δ ≤ d.2.im ∧ (1 / d.2).im ≤ -δ'

end Khepri
