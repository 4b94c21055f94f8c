import Verif.Model.Windows

/-!
# Averages over windows (specification)
-/

namespace Khepri

/-- The weighted sum of the elements of the window of `image` whose corner is `(i, j)`. -/
noncomputable def windowSum (image : View) (weight : RArr2) (i j : ℕ) : ℝ :=
  ∑ c : Fin weight.nx, ∑ d : Fin weight.ny, image.at (i + c) (j + d) * weight.val c d

/-- The mean of the elements of the window of `image` of `n x n` elements whose corner is `(i, j)`. -/
noncomputable def windowMean (image : View) (n i j : ℕ) : ℝ :=
  (∑ c ∈ Finset.range n, ∑ d ∈ Finset.range n, image.at (i + c) (j + d)) / (n : ℝ) ^ 2

/-- The two arrays are the same array: same shape, same elements (wherever they are in memory). -/
def View.Same (a b : View) : Prop :=
  a.rows = b.rows ∧ a.cols = b.cols ∧ ∀ i < a.rows, ∀ j < a.cols, a.at i j = b.at i j

end Khepri
