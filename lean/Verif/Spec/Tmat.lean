import Verif.Model.Tmat
import Verif.Spec.Scattering
import Mathlib.Analysis.Calculus.Deriv.Basic

/-!
# What the matrices of the T-matrix formulation mean (specification)

Amplitudes on a plane: forward ones in the first half of the vector, backward ones in the second half.
Tangential fields on a plane, one entry per order in each quarter: `Ex`, `Ey`, `Hx`, `Hy`.
Fields vary in time as `exp(-iωt)`.
-/

namespace Khepri

open Matrix Complex

section Scatter
variable {n : Type} [Fintype n]

/-- An S-matrix of this formulation: from what enters (forward on the left plane `u`, backward on the right plane
`v`) to what leaves (forward on the right, backward on the left). -/
def TScatters (S : Matrix (n ⊕ n) (n ⊕ n) ℂ) (u v : n ⊕ n → ℂ) : Prop :=
  Sum.elim (v ∘ Sum.inl) (u ∘ Sum.inr) = S *ᵥ Sum.elim (u ∘ Sum.inl) (v ∘ Sum.inr)

end Scatter

/-- The speed of light in vacuum, in m/s. -/
def lightSpeed : ℝ := 299792458

/-- The permeability of vacuum, in H/m (the value it had by definition until 2019). -/
noncomputable def vacuumPermeability : ℝ := 4 * Real.pi * 1e-7

/-- The permittivity of vacuum, in F/m. -/
noncomputable def vacuumPermittivity : ℝ := 1 / (vacuumPermeability * lightSpeed ^ 2)

/-- The impedance of vacuum, in Ω. -/
noncomputable def vacuumImpedance : ℝ := vacuumPermeability * lightSpeed

section Maxwell
variable {g : Type} [Fintype g]

/-- Maxwell's curl equations for an expansion in orders of in-plane wave vectors `u`, at the wave number `k0`:
`curl E = i k0 Z H`, `curl H = -i (k0/Z) eps E` with `Z` the impedance of
vacuum.  `e` multiplies the in-plane electric field by the
permittivity and `ei` divides the displacement by it. -/
def TMaxwell (u : g → ℂ × ℂ) (e ei : Matrix g g ℂ) (k0 : ℝ) (f : ℝ → (g ⊕ g) ⊕ (g ⊕ g) → ℂ) : Prop :=
  ∀ z : ℝ, ∃ (d : (g ⊕ g) ⊕ (g ⊕ g) → ℂ) (Ez Hz Dz : g → ℂ),
    (∀ i, HasDerivAt (fun t => f t i) (d i) z) ∧
    (let Ex := fun k => f z (.inl (.inl k))
     let Ey := fun k => f z (.inl (.inr k))
     let Hx := fun k => f z (.inr (.inl k))
     let Hy := fun k => f z (.inr (.inr k))
     let dEx := fun k => d (.inl (.inl k))
     let dEy := fun k => d (.inl (.inr k))
     let dHx := fun k => d (.inr (.inl k))
     let dHy := fun k => d (.inr (.inr k))
     Ez = ei *ᵥ Dz ∧
     ∀ k,
       I * (u k).2 * Ez k - dEy k = I * k0 * vacuumImpedance * Hx k ∧
       dEx k - I * (u k).1 * Ez k = I * k0 * vacuumImpedance * Hy k ∧
       I * (u k).1 * Ey k - I * (u k).2 * Ex k = I * k0 * vacuumImpedance * Hz k ∧
       I * (u k).2 * Hz k - dHy k = -I * (k0 / vacuumImpedance) * (e *ᵥ Ex) k ∧
       dHx k - I * (u k).1 * Hz k = -I * (k0 / vacuumImpedance) * (e *ᵥ Ey) k ∧
       I * (u k).1 * Hy k - I * (u k).2 * Hx k = -I * (k0 / vacuumImpedance) * Dz k)

/-- Power crossing a plane (`z` component of the Poynting vector, up to a constant factor). -/
noncomputable def TPower (f : (g ⊕ g) ⊕ (g ⊕ g) → ℂ) : ℝ :=
  ∑ k, (f (.inl (.inl k)) * star (f (.inr (.inr k))) - f (.inl (.inr k)) * star (f (.inr (.inl k)))).re

variable [DecidableEq g]

/-- An S-matrix between media whose fields are `Vl` and `Vr` times the amplitudes: as much power leaves as enters. -/
def TLossless (Vl Vr S : Matrix ((g ⊕ g) ⊕ (g ⊕ g)) ((g ⊕ g) ⊕ (g ⊕ g)) ℂ) : Prop :=
  ∀ u v, TScatters S u v → TPower (Vl *ᵥ u) = TPower (Vr *ᵥ v)

end Maxwell

/-- The in-plane wave vectors of the orders of a lattice, in the order of the vectors of amplitudes. -/
def TLattice.wave (l : TLattice) (kp : ℂ × ℂ) (k : Fin (l.shape.1 * l.shape.2)) : ℂ × ℂ :=
  (kp.1 + flatT l.shape l.gx k, kp.2 + flatT l.shape l.gy k)

/-- The transform of an island at a wave vector (0 where the code raises). -/
noncomputable def TShape.coef (s : TShape) (jv1 : ℝ → ℝ) (area : ℝ) (G : R2) : ℂ :=
  match s with
  | .uniform => 0
  | .shape s => match transformShape jv1 s G area with
    | .ok t => t
    | .error _ => 0

/-- How the pattern of a layer couples orders: the coefficient, at the difference of their wave vectors, of `f host`
outside the islands and `f eps` inside. -/
noncomputable def TLattice.coupling (l : TLattice) (jv1 : ℝ → ℝ) (islands : List (TShape × ℂ)) (host : ℂ) (f : ℂ → ℂ) :
    Matrix (Fin (l.shape.1 * l.shape.2)) (Fin (l.shape.1 * l.shape.2)) ℂ :=
  of fun i j => (if i = j then f host else 0) + (islands.map fun d => (f d.2 - f host) * d.1.coef jv1 l.area
    (flatT l.shape l.gx i - flatT l.shape l.gx j, flatT l.shape l.gy i - flatT l.shape l.gy j)).sum

end Khepri
