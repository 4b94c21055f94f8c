import Verif.Spec.Absorb
import Verif.Spec.Twisted

/-!
# Strictly absorbing layers of two lattices (specification)
-/

namespace Khepri

variable {M : ℕ}

namespace TwistedLayer

/-- A layer that absorbs everywhere, on its own lattice. -/
def strictlyAbsorbing (jv1 : ℝ → ℝ) (lhs rhs : Expansion M) : TwistedLayer M → Prop
  | uniform eps _ => eps.im < 0
  | first l => l.form.strictlyAbsorbing jv1 lhs
  | second l => l.form.strictlyAbsorbing jv1 rhs

/-- What is asked of the eigensolver for the wave vector `kp`: a layer of one lattice is diagonalised on that lattice
at `kp` shifted by each wave vector of the other one. -/
def diagonalised (lib : NumLib) (lhs rhs : Expansion M) (kp : ℝ × ℝ) (wl : ℝ) : TwistedLayer M → Prop
  | uniform _ _ => True
  | first l => ∀ i, let k := (kp.1 + (rhs.g i).1, kp.2 + (rhs.g i).2)
      l.form.diagonalised lib lhs (orderKx lhs k wl) (orderKy lhs k wl)
  | second l => ∀ i, let k := (kp.1 + (lhs.g i).1, kp.2 + (lhs.g i).2)
      l.form.diagonalised lib rhs (orderKx rhs k wl) (orderKy rhs k wl)

end TwistedLayer

end Khepri
