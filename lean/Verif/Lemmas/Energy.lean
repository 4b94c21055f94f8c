import Verif.Spec.Energy
import Verif.Spec.Device
import Mathlib.Analysis.SpecialFunctions.Exponential
import Mathlib.Analysis.Calculus.Deriv.Star
import Mathlib.Analysis.Calculus.Deriv.MeanValue
import Mathlib.Analysis.Calculus.MeanValue
import Mathlib.Analysis.Complex.Basic
import Mathlib.Topology.Algebra.Module.FiniteDimension

set_option linter.unusedSectionVars false

namespace Khepri

open Matrix

variable {ι : Type} [Fintype ι] [DecidableEq ι]

section Deriv
variable {n : Type} [Fintype n] [DecidableEq n]

attribute [local instance] Matrix.linftyOpNormedRing Matrix.linftyOpNormedAlgebra in
theorem hasDerivAt_exp_mulVec (A : Matrix n n ℂ) (x : n → ℂ) (t : ℝ) (i : n) :
    HasDerivAt (fun τ : ℝ => (NormedSpace.exp ((τ : ℂ) • A) *ᵥ x) i)
      ((A *ᵥ (NormedSpace.exp ((t : ℂ) • A) *ᵥ x)) i) t := by
  have h := hasDerivAt_exp_smul_const' (𝕂 := ℝ) A t
  let L : Matrix n n ℂ →ₗ[ℝ] ℂ :=
    { toFun := fun M => (M *ᵥ x) i
      map_add' := fun M M' => by simp [add_mulVec]
      map_smul' := fun r M => by simp [smul_mulVec] }
  have h2 := (L.toContinuousLinearMap.hasFDerivAt (x := NormedSpace.exp (t • A))).comp_hasDerivAt t h
  simp only [Complex.coe_smul]
  rw [mulVec_mulVec]
  exact h2

end Deriv

/-- The state of Maxwell's equations at optical depth `τ`. -/
noncomputable def flow (P Q : Matrix (ι ⊕ ι) (ι ⊕ ι) ℂ) (F : Tang (ι ⊕ ι)) (τ : ℝ) : Tang (ι ⊕ ι) :=
  ⟨fun i => (NormedSpace.exp ((τ : ℂ) • fromBlocks 0 P Q 0) *ᵥ Sum.elim F.E F.H) (.inl i),
   fun i => (NormedSpace.exp ((τ : ℂ) • fromBlocks 0 P Q 0) *ᵥ Sum.elim F.E F.H) (.inr i)⟩

theorem flow_elim (P Q : Matrix (ι ⊕ ι) (ι ⊕ ι) ℂ) (F : Tang (ι ⊕ ι)) (τ : ℝ) :
    Sum.elim (flow P Q F τ).E (flow P Q F τ).H =
      NormedSpace.exp ((τ : ℂ) • fromBlocks 0 P Q 0) *ᵥ Sum.elim F.E F.H := by
  funext i; rcases i with i | i <;> rfl

theorem maxwellTransfer_iff_flow {P Q : Matrix (ι ⊕ ι) (ι ⊕ ι) ℂ} {F G : Tang (ι ⊕ ι)} {τ : ℝ} :
    MaxwellTransfer P Q τ F G ↔ G = flow P Q F τ := by
  rw [MaxwellTransfer, ← flow_elim]
  constructor
  · intro h
    apply Tang.ext
    · funext i; exact congrFun h (.inl i)
    · funext i; exact congrFun h (.inr i)
  · rintro rfl; rfl

theorem flow_zero (P Q : Matrix (ι ⊕ ι) (ι ⊕ ι) ℂ) (F : Tang (ι ⊕ ι)) : flow P Q F 0 = F := by
  apply Tang.ext <;> funext i <;> simp [flow]

theorem hasDerivAt_flow_E (P Q : Matrix (ι ⊕ ι) (ι ⊕ ι) ℂ) (F : Tang (ι ⊕ ι)) (t : ℝ) (i : ι ⊕ ι) :
    HasDerivAt (fun τ => (flow P Q F τ).E i) ((P *ᵥ (flow P Q F t).H) i) t := by
  have := hasDerivAt_exp_mulVec (fromBlocks 0 P Q 0) (Sum.elim F.E F.H) t (.inl i)
  rw [← flow_elim, fromBlocks_mulVec] at this
  simpa [flow, Function.comp_def] using this

theorem hasDerivAt_flow_H (P Q : Matrix (ι ⊕ ι) (ι ⊕ ι) ℂ) (F : Tang (ι ⊕ ι)) (t : ℝ) (i : ι ⊕ ι) :
    HasDerivAt (fun τ => (flow P Q F τ).H i) ((Q *ᵥ (flow P Q F t).E) i) t := by
  have := hasDerivAt_exp_mulVec (fromBlocks 0 P Q 0) (Sum.elim F.E F.H) t (.inr i)
  rw [← flow_elim, fromBlocks_mulVec] at this
  simpa [flow, Function.comp_def] using this

theorem hasDerivAt_power (P Q : Matrix (ι ⊕ ι) (ι ⊕ ι) ℂ) (F : Tang (ι ⊕ ι)) (t : ℝ) :
    HasDerivAt (fun τ => fluxZ (flow P Q F τ))
      (-(∑ i, ((star ((P *ᵥ (flow P Q F t).H) (.inl i)) * (flow P Q F t).H (.inr i) +
          star ((flow P Q F t).E (.inl i)) * (Q *ᵥ (flow P Q F t).E) (.inr i)) -
        (star ((P *ᵥ (flow P Q F t).H) (.inr i)) * (flow P Q F t).H (.inl i) +
          star ((flow P Q F t).E (.inr i)) * (Q *ᵥ (flow P Q F t).E) (.inl i)))).im) t := by
  unfold fluxZ
  have hg := HasDerivAt.fun_sum (u := Finset.univ) fun (i : ι) _ =>
    (((hasDerivAt_flow_E P Q F t (.inl i)).star.mul (hasDerivAt_flow_H P Q F t (.inr i))).sub
      ((hasDerivAt_flow_E P Q F t (.inr i)).star.mul (hasDerivAt_flow_H P Q F t (.inl i))))
  exact ((Complex.imCLM.hasFDerivAt.comp_hasDerivAt t hg)).neg

theorem maxwellP_mulVec (kx ky : ι → ℂ) (C : Matrix ι ι ℂ) (H : ι ⊕ ι → ℂ) :
    maxwellP kx ky C *ᵥ H = Sum.elim
      (fun i => H (.inr i) - kx i * (C⁻¹ *ᵥ fun j => kx j * H (.inr j) - ky j * H (.inl j)) i)
      (fun i => -H (.inl i) - ky i * (C⁻¹ *ᵥ fun j => kx j * H (.inr j) - ky j * H (.inl j)) i) := by
  have e : (fun j => kx j * H (.inr j) - ky j * H (.inl j)) =
      diagonal kx *ᵥ (fun j => H (.inr j)) - diagonal ky *ᵥ (fun j => H (.inl j)) := by
    funext j; simp [mulVec_diagonal]
  have hH : H = Sum.elim (fun j => H (.inl j)) (fun j => H (.inr j)) := by
    funext j; rcases j with j | j <;> rfl
  conv_lhs => rw [hH]
  rw [e, mulVec_sub, maxwellP, fromBlocks_mulVec]
  simp only [Sum.elim_comp_inl, Sum.elim_comp_inr]
  congr 1
  · funext i
    simp only [Pi.add_apply, sub_mulVec, one_mulVec, Pi.sub_apply, ← mulVec_mulVec, mulVec_diagonal]
    ring
  · funext i
    simp only [Pi.add_apply, sub_mulVec, neg_mulVec, one_mulVec, Pi.sub_apply, Pi.neg_apply,
      ← mulVec_mulVec, mulVec_diagonal]
    ring

theorem maxwellQ_mulVec (kx ky : ι → ℂ) (C : Matrix ι ι ℂ) (E : ι ⊕ ι → ℂ) :
    maxwellQ kx ky C *ᵥ E = Sum.elim
      (fun i => (C *ᵥ fun j => E (.inr j)) i + kx i * (ky i * E (.inl i) - kx i * E (.inr i)))
      (fun i => -(C *ᵥ fun j => E (.inl j)) i + ky i * (ky i * E (.inl i) - kx i * E (.inr i))) := by
  have hE : E = Sum.elim (fun j => E (.inl j)) (fun j => E (.inr j)) := by
    funext j; rcases j with j | j <;> rfl
  conv_lhs => rw [hE]
  rw [maxwellQ, fromBlocks_mulVec]
  simp only [Sum.elim_comp_inl, Sum.elim_comp_inr]
  congr 1
  · funext i
    simp only [Pi.add_apply, sub_mulVec, Pi.sub_apply, ← mulVec_mulVec, mulVec_diagonal]
    ring
  · funext i
    simp only [Pi.add_apply, sub_mulVec, neg_mulVec, Pi.sub_apply, Pi.neg_apply,
      ← mulVec_mulVec, mulVec_diagonal]
    ring

/-- Poynting's theorem. -/
theorem poynting {kx ky : ι → ℝ} {C : Matrix ι ι ℂ} (hC : C.det ≠ 0) (E H : ι ⊕ ι → ℂ) :
    let P := maxwellP (fun i => (kx i : ℂ)) (fun i => (ky i : ℂ)) C
    let Q := maxwellQ (fun i => (kx i : ℂ)) (fun i => (ky i : ℂ)) C;
    let u := (C⁻¹ *ᵥ fun j => (kx j : ℂ) * H (.inr j) - ky j * H (.inl j));
    -(∑ i, ((star ((P *ᵥ H) (.inl i)) * H (.inr i) + star (E (.inl i)) * (Q *ᵥ E) (.inr i)) -
        (star ((P *ᵥ H) (.inr i)) * H (.inl i) + star (E (.inr i)) * (Q *ᵥ E) (.inl i)))).im =
      (star (fun i => E (.inl i)) ⬝ᵥ C *ᵥ fun i => E (.inl i)).im +
      (star (fun i => E (.inr i)) ⬝ᵥ C *ᵥ fun i => E (.inr i)).im +
      (star u ⬝ᵥ C *ᵥ u).im := by
  intro P Q u
  have hu : C *ᵥ u = fun j => (kx j : ℂ) * H (.inr j) - ky j * H (.inl j) := by
    simp only [u]
    rw [mulVec_mulVec, mul_nonsing_inv _ (isUnit_iff_ne_zero.2 hC), one_mulVec]
  rw [hu]
  simp only [P, Q, maxwellP_mulVec, maxwellQ_mulVec, Sum.elim_inl, Sum.elim_inr]
  simp only [dotProduct, Complex.im_sum, ← Finset.sum_neg_distrib, ← Finset.sum_add_distrib]
  refine Finset.sum_congr rfl fun i _ => ?_
  simp only [Pi.star_apply]
  have : (C⁻¹ *ᵥ fun j => (kx j : ℂ) * H (.inr j) - ky j * H (.inl j)) i = u i := rfl
  rw [this]
  generalize u i = ui
  generalize (C *ᵥ fun j => E (.inl j)) i = c1
  generalize (C *ᵥ fun j => E (.inr j)) i = c2
  simp
  ring

theorem power_flow_antitone {kx ky : ι → ℝ} {C : Matrix ι ι ℂ} (hC : C.det ≠ 0) (ha : AbsorbingMat C)
    (F : Tang (ι ⊕ ι)) :
    Antitone fun τ => fluxZ (flow (maxwellP (fun i => (kx i : ℂ)) (fun i => (ky i : ℂ)) C)
      (maxwellQ (fun i => (kx i : ℂ)) (fun i => (ky i : ℂ)) C) F τ) := by
  refine antitone_of_deriv_nonpos (fun t => (hasDerivAt_power _ _ F t).differentiableAt) fun t => ?_
  rw [(hasDerivAt_power _ _ F t).deriv, poynting hC]
  linarith [ha (fun i => (flow (maxwellP (fun i => (kx i : ℂ)) (fun i => (ky i : ℂ)) C)
      (maxwellQ (fun i => (kx i : ℂ)) (fun i => (ky i : ℂ)) C) F t).E (.inl i)),
    ha (fun i => (flow (maxwellP (fun i => (kx i : ℂ)) (fun i => (ky i : ℂ)) C)
      (maxwellQ (fun i => (kx i : ℂ)) (fun i => (ky i : ℂ)) C) F t).E (.inr i)),
    ha (C⁻¹ *ᵥ fun j => (kx j : ℂ) * (flow (maxwellP (fun i => (kx i : ℂ)) (fun i => (ky i : ℂ)) C)
      (maxwellQ (fun i => (kx i : ℂ)) (fun i => (ky i : ℂ)) C) F t).H (.inr j) - ky j *
      (flow (maxwellP (fun i => (kx i : ℂ)) (fun i => (ky i : ℂ)) C)
      (maxwellQ (fun i => (kx i : ℂ)) (fun i => (ky i : ℂ)) C) F t).H (.inl j))]

theorem power_flow_const {kx ky : ι → ℝ} {C : Matrix ι ι ℂ} (hC : C.det ≠ 0) (ha : LosslessMat C)
    (F : Tang (ι ⊕ ι)) (t : ℝ) :
    fluxZ (flow (maxwellP (fun i => (kx i : ℂ)) (fun i => (ky i : ℂ)) C)
      (maxwellQ (fun i => (kx i : ℂ)) (fun i => (ky i : ℂ)) C) F t) = fluxZ F := by
  have := is_const_of_deriv_eq_zero
    (f := fun τ => fluxZ (flow (maxwellP (fun i => (kx i : ℂ)) (fun i => (ky i : ℂ)) C)
      (maxwellQ (fun i => (kx i : ℂ)) (fun i => (ky i : ℂ)) C) F τ))
    (fun t => (hasDerivAt_power _ _ F t).differentiableAt) (fun t => by
      rw [(hasDerivAt_power _ _ F t).deriv, poynting hC, ha, ha, ha]; ring) t 0
  simpa [flow_zero] using this

end Khepri
