import Verif.Model.Extension

/-!
# The joint space of two lattices (specification)

Order `(i, r)` of the joint space is order `r` of the base lattice seen from the `i`-th g-vector of the
other lattice.
-/

namespace Khepri

/-- Row-major position of a pair. -/
def pairPos {N : ℕ} (i j : Fin N) : Fin (N * N) := finProdFinEquiv (i, j)

/-- Number, in the joint expansion, of order `r` of the base lattice at g-vector number `i` of the other
lattice: the g-vector varies slowest in mode 0, fastest in mode 1. -/
def jointPos {N : ℕ} (kind : ℕ) (i r : Fin N) : Fin (N * N) := if kind = 0 then pairPos i r else pairPos r i

/-- The component (x or y) of an order. -/
def comp {N : ℕ} (b : Bool) (i : Fin N) : Fin N ⊕ Fin N := if b then .inr i else .inl i

/-- `R` is the extension of the family `A` of matrices to the joint space: it acts on the orders that
share g-vector number `i` as `A i`, and couples no other orders. -/
def Extends {N : ℕ} (kind : ℕ) (A : Fin N → Mat2 N) (R : Mat2 (N * N)) : Prop :=
  ∀ (a b : Bool) (i j r c : Fin N),
    R (comp a (jointPos kind i r)) (comp b (jointPos kind j c)) =
      if i = j then A i (comp a r) (comp b c) else 0

end Khepri
