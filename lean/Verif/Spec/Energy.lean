import Verif.Spec.Fields

/-!
# Energy (specification)
-/

namespace Khepri

open Matrix

variable {ι : Type} [Fintype ι]

/-- Power carried in the `+z` direction by tangential fields, up to a fixed positive factor: the
`z` component of the Poynting vector summed over the orders, `-Im Σ (Ex* Hy - Ey* Hx)` with the
magnetic field scaled as in `E' = k0 P H`, `H' = k0 Q E`. -/
def fluxZ (F : Tang (ι ⊕ ι)) : ℝ :=
  -(∑ i, (star (F.E (.inl i)) * F.H (.inr i) - star (F.E (.inr i)) * F.H (.inl i))).im

/-- A permittivity matrix of a medium without loss or gain. -/
def LosslessMat (C : Matrix ι ι ℂ) : Prop := ∀ u, (star u ⬝ᵥ C *ᵥ u).im = 0

/-- A permittivity matrix of a medium that absorbs or is lossless (`exp(+iωt)`: `Im ε ≤ 0`). -/
def AbsorbingMat (C : Matrix ι ι ℂ) : Prop := ∀ u, (star u ⬝ᵥ C *ᵥ u).im ≤ 0

end Khepri
