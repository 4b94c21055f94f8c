import Verif.Model.Draw

/-!
# What drawing means

Regions of the plane, the position of a pixel, the last shape drawn over a point, maximal runs of an array.
-/

namespace Khepri

/-- A call of one of the drawing methods. -/
inductive DrawOp
  | disc (xy : R2) (radius : ℝ) (eps : PyNum)
  | rectangle (xy wh : R2) (eps : PyNum)
  | ellipse (xy ab : R2) (r : ℝ) (eps : PyNum)
  | parallelogram (xy bh : R2) (tilt : ℝ) (eps : PyNum)

namespace DrawOp

/-- The permittivity given. -/
def eps : DrawOp → PyNum
  | disc _ _ e => e
  | rectangle _ _ e => e
  | ellipse _ _ _ e => e
  | parallelogram _ _ _ e => e

/-- Making the call. -/
noncomputable def call {nx ny : ℕ} (d : Drawing nx ny) : DrawOp → Py (Drawing nx ny)
  | disc xy r e => d.disc xy r e
  | rectangle xy wh e => d.rectangle xy wh e
  | ellipse xy ab r e => d.ellipse xy ab r e
  | parallelogram xy bh t e => d.parallelogram xy bh t e

/-- The region of the plane the call is about: an open disc, a closed rectangle centred at `xy`, an open ellipse
of half-axes `ab` turned by `r`, a parallelogram whose lower and upper sides are parallel to the `x` axis and at
distance `h / 2` from the ordinate of `xy`, and whose oblique sides cross the `x` axis at distance `b / 2` from
the abscissa of `xy`. -/
def Covers : DrawOp → R2 → Prop
  | disc xy r _, p => 0 ≤ r ∧ (p.1 - xy.1) ^ 2 + (p.2 - xy.2) ^ 2 < r ^ 2
  | rectangle xy wh _, p => |p.1 - xy.1| ≤ wh.1 / 2 ∧ |p.2 - xy.2| ≤ wh.2 / 2
  | ellipse xy ab r _, p =>
    (((p.1 - xy.1) * Real.cos r + (p.2 - xy.2) * Real.sin r) / ab.1) ^ 2 +
      ((-(p.1 - xy.1) * Real.sin r + (p.2 - xy.2) * Real.cos r) / ab.2) ^ 2 < 1
  | parallelogram xy bh t _, p => |p.2 - xy.2| < bh.2 / 2 ∧
    -(bh.1 / 2) < p.1 - (xy.1 + Real.tan t * p.2) ∧ p.1 - (xy.1 + Real.tan t * p.2) ≤ bh.1 / 2

/-- Calls whose shape is recorded among the islands and has an analytical transform. -/
def Simple : DrawOp → Prop
  | disc .. => True
  | rectangle .. => True
  | _ => False

/-- Parallelograms are drawn on lattices whose first vector lies along `x` and whose second one points up. -/
def Fits (lattice : R2 × R2) : DrawOp → Prop
  | parallelogram .. => lattice.1.2 = 0 ∧ 0 < lattice.2.2
  | _ => True

end DrawOp

/-- The point of the plane pixel `(i, j)` of an `nx × ny` grid stands for: the grid spans the cell of the lattice,
borders included. -/
noncomputable def pixelAt (lattice : R2 × R2) (nx ny i j : ℕ) : R2 :=
  let u : ℝ := -(1 / 2) + i / (nx - 1)
  let v : ℝ := -(1 / 2) + j / (ny - 1)
  (u * lattice.1.1 + v * lattice.2.1, u * lattice.1.2 + v * lattice.2.2)

/-- The value of the last call of `ops` about `p`, `bg` if there is none. -/
def PaintedAs (ops : List DrawOp) (bg : ℂ) (p : R2) (v : ℂ) : Prop :=
  ((∀ op ∈ ops, ¬ op.Covers p) ∧ v = bg) ∨
    ∃ before op after, ops = before ++ op :: after ∧ op.Covers p ∧ (∀ o ∈ after, ¬ o.Covers p) ∧ v = op.eps.val

/-- An island covers a point: islands live on the cell shifted by half a unit along both axes. -/
def Island.Covers (s : Island) (p : R2) : Prop :=
  match s.shape with
  | .rectangle a b c d => (a ≤ p.1 ∧ p.1 ≤ c) ∧ (b ≤ p.2 ∧ p.2 ≤ d)
  | .disc a b r => 0 ≤ r ∧ (p.1 - a) ^ 2 + (p.2 - b) ^ 2 < r ^ 2
  | .ellipse x y a b r =>
    (((p.1 - x) * Real.cos r + (p.2 - y) * Real.sin r) / a) ^ 2 +
      ((-(p.1 - x) * Real.sin r + (p.2 - y) * Real.cos r) / b) ^ 2 < 1

open Classical in
/-- Permittivity at a point of a host with islands in it, as the analytical Fourier sum adds them up. -/
noncomputable def islandSum (islands : List Island) (host : ℂ) (p : R2) : ℂ :=
  host + ((islands.filter fun s => s.Covers p).map fun s => s.eps - host).sum

/-- `xs[s], …, xs[e-1]` is a longest run of one value `v`. -/
structure MaximalRun (xs : List ℝ) (s e : ℕ) (v : ℝ) : Prop where
  nonempty : s < e
  inside : e ≤ xs.length
  const : ∀ i, s ≤ i → i < e → xs[i]? = some v
  left : ∀ i, i + 1 = s → xs[i]? ≠ some v
  right : xs[e]? ≠ some v

end Khepri
