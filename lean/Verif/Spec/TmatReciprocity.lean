import Verif.Spec.Tmat

/-!
# Reciprocity in the T-matrix formulation (specification)

Orders are numbered so that, in grids of odd sizes, the order opposite to `k` is `k.rev` (see `C100_orders`).
-/

namespace Khepri

open Matrix Complex

section
variable {N : ℕ}

/-- The `z` component of `E' × H - E × H'`, averaged over the cell, for tangential fields `F` (rows `Ex, Ey, Hx, Hy`) of an
in-plane wave vector and `F'` of the opposite one: only opposite orders contribute. -/
def tLorentz (F' F : (Fin N ⊕ Fin N) ⊕ (Fin N ⊕ Fin N) → ℂ) : ℂ :=
  ∑ k : Fin N, ((F' (.inl (.inl k.rev)) * F (.inr (.inr k)) - F' (.inl (.inr k.rev)) * F (.inr (.inl k))) -
    (F (.inl (.inl k)) * F' (.inr (.inr k.rev)) - F (.inl (.inr k)) * F' (.inr (.inl k.rev))))

/-- Lorentz reciprocity of an S-matrix `S` and an S-matrix `S'` of the opposite in-plane wave vector, between media whose
fields are `Vl`, `Vr` (and `Vl'`, `Vr'`) times the amplitudes. -/
def TReciprocal (Vl Vr S Vl' Vr' S' : Matrix ((Fin N ⊕ Fin N) ⊕ (Fin N ⊕ Fin N)) ((Fin N ⊕ Fin N) ⊕ (Fin N ⊕ Fin N)) ℂ) : Prop :=
  ∀ u v u' v', TScatters S u v → TScatters S' u' v' → tLorentz (Vl' *ᵥ u') (Vl *ᵥ u) = tLorentz (Vr' *ᵥ v') (Vr *ᵥ v)

/-- The opposite order, in the same polarisation. -/
def oppWave (i : Fin N ⊕ Fin N) : Fin N ⊕ Fin N := Sum.map Fin.rev Fin.rev i

end

/-- The sign with which the in-plane direction of an order comes back at the opposite in-plane wave vector. -/
noncomputable def TLattice.flip (l : TLattice) (kp : ℂ × ℂ) (k : Fin (l.shape.1 * l.shape.2)) : ℂ :=
  if uNorm (kp.1 + flatT l.shape l.gx k, kp.2 + flatT l.shape l.gy k) ^ 2 < 1 / 2 ^ 52 then 1 else -1

/-- The weight of a wave (order, polarisation) of a medium in the Lorentz form: `kz` up to sign. -/
noncomputable def TLattice.weight (l : TLattice) (eps : PyNum) (wl : ℝ) (kp : ℂ × ℂ) :
    Fin (l.shape.1 * l.shape.2) ⊕ Fin (l.shape.1 * l.shape.2) → ℂ
  | .inl k => flatT l.shape (l.kz eps wl kp) k * l.flip kp k
  | .inr k => -(flatT l.shape (l.kz eps wl kp) k * l.flip kp k)

/-- The weights of the waves that enter a device: from the left in the medium of incidence, from the right in that of
emergence. -/
noncomputable def TLattice.weights (l : TLattice) (wl : ℝ) (kp : ℂ × ℂ) : TIdx l.shape → ℂ :=
  Sum.elim (l.weight l.epsI wl kp) (l.weight l.epsE wl kp)

end Khepri
