import Verif.Spec.Islands

/-!
# Islands laid out in a cell (specification)
-/

namespace Khepri

open MeasureTheory

/-- The closed cell of a lattice with corner `o`. -/
def Cell (lat : R2 × R2) (o : R2) : Set R2 :=
  {p | ∃ x ∈ Set.Icc (0 : ℝ) 1, ∃ y ∈ Set.Icc (0 : ℝ) 1,
    p = (o.1 + x * lat.1.1 + y * lat.2.1, o.2 + x * lat.1.2 + y * lat.2.2)}

/-- Islands laid out without overlap (they may touch) in one cell of the lattice, wherever its corner is. -/
structure Laid (lat : R2 × R2) (islands : List Island) : Prop where
  proper : ∀ s ∈ islands, s.shape.Proper
  cell : ∃ o, ∀ s ∈ islands, s.region ⊆ Cell lat o
  apart : islands.Pairwise fun s t => volume (s.region ∩ t.region) = 0

end Khepri
