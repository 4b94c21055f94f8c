import Verif.Spec.Energy
import Verif.Spec.Device

/-!
# Strictly absorbing media (specification)
-/

namespace Khepri

open Matrix

/-- A permittivity matrix of a medium that absorbs every field (`exp(+iωt)`: `Im ε < 0`). -/
def StrictlyAbsorbingMat {ι : Type} [Fintype ι] (C : Matrix ι ι ℂ) : Prop :=
  ∀ u, u ≠ 0 → (star u ⬝ᵥ C *ᵥ u).im < 0

/-- A layer that absorbs everywhere: `Im ε < 0` for a uniform layer, at every pixel for a pixmap that
resolves the orders (at least `2P - 1` by `2Q - 1` pixels), on the permittivity matrix for islands. -/
def Form.strictlyAbsorbing {N : ℕ} (jv1 : ℝ → ℝ) (e : Expansion N) : Form → Prop
  | .uniform eps => eps.im < 0
  | .fft pix => 2 * e.pw.1 ≤ pix.nx + 1 ∧ 2 * e.pw.2 ≤ pix.ny + 1 ∧ ∀ x y, (pix.val x y).im < 0
  | .analytical islands host => ∃ C, analyticalC jv1 e islands host = .ok C ∧ StrictlyAbsorbingMat C
  | _ => False

/-- What is asked of the eigensolver: on the matrix `P Q` of Maxwell's equations in the layer it returns,
with independent eigenvectors.  Nothing is asked for a uniform layer, whose modes are explicit. -/
def Form.diagonalised {N : ℕ} (lib : NumLib) (e : Expansion N) (kx ky : Fin N → ℝ) : Form → Prop
  | .uniform _ => True
  | f => ∀ C, Permittivity lib.jv1 e f C → ∃ r,
      lib.eig N (maxwellP (fun i => (kx i : ℂ)) (fun i => (ky i : ℂ)) C *
        maxwellQ (fun i => (kx i : ℂ)) (fun i => (ky i : ℂ)) C) = .ok r ∧ r.2.det ≠ 0

end Khepri
