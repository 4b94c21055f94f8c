import Verif.Model.Factory
import Verif.Spec.Symmetry

/-!
# The woodpile (specification)
-/

namespace Khepri

/-- Position across the cell, in units of the period, of pixel `j` of a drawing of `n` pixels: from `-1/2` to `1/2`,
both included. -/
noncomputable def across (n j : ℕ) : ℝ := -(1 / 2) + (j : ℝ) / (n - 1)

/-- Rods of width `w`, one per period 1, with centres at `c + n` for all integers `n`: what is in a rod. -/
def InRod (w c y : ℝ) : Prop := ∃ n : ℤ, |y - c - n| ≤ w / 2

/-- A pixmap of rods along the first axis: at the positions `y` across such that `p y`, permittivity `eps` in
vacuum. -/
def RodsAlongX (p : ℝ → Prop) (eps : ℂ) (a : Arr2) : Prop :=
  ∀ (i : Fin a.nx) (j : Fin a.ny), (p (across a.ny j) → a.val i j = eps) ∧ (¬ p (across a.ny j) → a.val i j = 1)

/-- A pixmap of rods along the second axis. -/
def RodsAlongY (p : ℝ → Prop) (eps : ℂ) (a : Arr2) : Prop :=
  ∀ (i : Fin a.nx) (j : Fin a.ny), (p (across a.nx i) → a.val i j = eps) ∧ (¬ p (across a.nx i) → a.val i j = 1)

end Khepri
