import Verif.Spec.Energy
import Mathlib.MeasureTheory.Integral.IntervalIntegral.Basic
import Mathlib.Analysis.Complex.Basic

/-!
# Averages over a unit cell (specification)
-/

namespace Khepri

/-- Mean of `f` over the unit cell spanned by `a` and `b`. -/
noncomputable def cellMean (a b : ℝ × ℝ) (f : ℝ → ℝ → ℂ) : ℂ :=
  ∫ s in (0 : ℝ)..1, ∫ t in (0 : ℝ)..1, f (s * a.1 + t * b.1) (s * a.2 + t * b.2)

end Khepri
