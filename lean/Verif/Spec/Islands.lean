import Verif.Spec.Draw
import Mathlib.MeasureTheory.Integral.Bochner.Set
import Mathlib.MeasureTheory.Integral.IntervalIntegral.Basic
import Mathlib.MeasureTheory.Constructions.BorelSpace.Complex
import Mathlib.MeasureTheory.Measure.Lebesgue.Basic

/-!
# Fourier integrals of islands (specification)
-/

namespace Khepri

open MeasureTheory

/-- `exp(-i G·r)`. -/
noncomputable def planeWave (g p : R2) : ℂ := Complex.exp (-Complex.I * (g.1 * p.1 + g.2 * p.2 : ℝ))

/-- The region an island covers. -/
def Island.region (s : Island) : Set R2 := {p | s.Covers p}

/-- Rectangles given by their lower left and upper right corners, discs of positive radius. -/
def Shape.Proper : Shape → Prop
  | .rectangle a b c d => a ≤ c ∧ b ≤ d
  | .disc _ _ r => 0 < r
  | .ellipse .. => False

/-- Area of a rectangle (0 for other shapes). -/
def Shape.rectArea : Shape → ℝ
  | .rectangle a b c d => (c - a) * (d - b)
  | _ => 0

/-- Fourier coefficient at order `(m, n)` of the pattern repeated on the lattice: the host everywhere and, in each
cell, what the islands add to it. -/
noncomputable def patternCoef (islands : List Island) (host : ℂ) (b : R2 × R2) (sigma : ℝ) (mn : ℤ × ℤ) : ℂ :=
  (if mn = (0, 0) then host else 0) +
    1 / sigma * ∫ p, (islandSum islands host p - host) *
      planeWave (mn.1 * b.1.1 + mn.2 * b.2.1, mn.1 * b.1.2 + mn.2 * b.2.2) p

/-- `G = 0`, or `G` outside the square of half-side `10⁻⁸`. -/
def ClearOf (g : R2) : Prop := g = 0 ∨ 1 / 10 ^ 8 < |g.1| ∨ 1 / 10 ^ 8 < |g.2|

/-- Reciprocal lattice vectors are 0 or not too small (periods below a few hundred millions). -/
def Periods (b : R2 × R2) : Prop :=
  ∀ mn : ℤ × ℤ, ClearOf (mn.1 * b.1.1 + mn.2 * b.2.1, mn.1 * b.1.2 + mn.2 * b.2.2)

/-- Poisson's integral for the Bessel function of the first kind of order 1. -/
def BesselOne (jv1 : ℝ → ℝ) : Prop :=
  ∀ x, jv1 x = x / Real.pi * ∫ t in (-1 : ℝ)..1, Real.sqrt (1 - t ^ 2) * Real.cos (x * t)

end Khepri
