import Verif.Model.Amplitudes

/-!
# Sampled Bloch fields (specification)
-/

namespace Khepri

open Complex

/-- The pixel in row `r` and column `c` of an image with `n` pixels per period along both lattice vectors: columns
along the first one, rows along the second. -/
noncomputable def pixelPos (o : R2) (lat : R2 × R2) (n r c : ℕ) : R2 :=
  (o.1 + (c : ℝ) / n * lat.1.1 + (r : ℝ) / n * lat.2.1, o.2 + (c : ℝ) / n * lat.1.2 + (r : ℝ) / n * lat.2.2)

/-- The value at `p` of the field with amplitudes `a` on the plane waves of an expansion and Bloch vector `kp`. -/
noncomputable def blochField {N : ℕ} (e : Expansion N) (kp : ℂ × ℂ) (a : Fin N → ℂ) (p : R2) : ℂ :=
  ∑ g, a g * exp (I * ((kp.1 + (e.g g).1) * p.1 + (kp.2 + (e.g g).2) * p.2))

end Khepri
