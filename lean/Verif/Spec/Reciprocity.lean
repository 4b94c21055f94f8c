import Verif.Spec.Symmetry

/-!
# Reciprocity (specification)
-/

namespace Khepri

/-- The form of Lorentz's reciprocity theorem for tangential fields `F'`, `F` whose orders are numbered so that
numbers `i` and `N - 1 - i` belong to opposite in-plane wave vectors: the `z` component of `E' × H - E × H'`, averaged
over a cell. -/
def lorentz {N : ℕ} (F' F : Tang (Fin N ⊕ Fin N)) : ℂ :=
  ∑ i : Fin N, ((F'.E (.inl i.rev) * F.H (.inr i) - F'.E (.inr i.rev) * F.H (.inl i)) -
    (F.E (.inl i) * F'.H (.inr i.rev) - F.E (.inr i) * F'.H (.inl i.rev)))

/-- Numbers `i` and `N - 1 - i` of the expansion are opposite orders. -/
def OppositeOrders {N : ℕ} (e : Expansion N) : Prop := ∀ i : Fin N, e.g i.rev = (-(e.g i).1, -(e.g i).2)

/-- The same waves seen in a mirror parallel to the layers. -/
def Port.flip {n : Type} (p : Port n) : Port n := ⟨p.bwd, p.fwd⟩

/-- The same tangential fields seen in a mirror parallel to the layers. -/
def Tang.flip {n : Type} (F : Tang n) : Tang n := ⟨F.E, -F.H⟩

end Khepri
