import Verif.Lemmas.Energy
import Verif.Lemmas.FormSolve
import Verif.Spec.Crystal

set_option linter.unusedSectionVars false

namespace Khepri

open Matrix

variable {ι : Type} [Fintype ι] [DecidableEq ι]

/-- Squared length of the plane wave of order `i` with tangential amplitudes `s`, its longitudinal
component being the transverse one. -/
noncomputable def waveNorm (kx ky : ι → ℝ) (kz : ι → ℂ) (s : ι ⊕ ι → ℂ) (i : ι) : ℝ :=
  ‖s (.inl i)‖ ^ 2 + ‖s (.inr i)‖ ^ 2 + ‖-(kx i * s (.inl i) + ky i * s (.inr i)) / kz i‖ ^ 2

theorem normSq_re_im (z : ℂ) : ‖z‖ ^ 2 = z.re ^ 2 + z.im ^ 2 := by
  rw [Complex.sq_norm, Complex.normSq_apply]; ring

theorem outerKz_pos {x : ℝ} (h : 0 < x) : outerKz x = (Real.sqrt x : ℂ) := by
  simp [outerKz, h.le]

theorem outerKz_neg {x : ℝ} (h : x < 0) : outerKz x = -Complex.I * (Real.sqrt (-x) : ℂ) := by
  simp [outerKz, not_le.2 h]

/-- Power carried by the waves of an outer medium, when no evanescent order has both waves. -/
theorem fluxZ_outer {kx ky : ι → ℝ} {er : ℝ} {p : Port (ι ⊕ ι)}
    (hg : ∀ i, er - kx i ^ 2 - ky i ^ 2 ≠ 0)
    (he : ∀ i, er - kx i ^ 2 - ky i ^ 2 < 0 →
      (p.fwd (.inl i) = 0 ∧ p.fwd (.inr i) = 0) ∨ (p.bwd (.inl i) = 0 ∧ p.bwd (.inr i) = 0)) :
    fluxZ (outerField kx ky er p) = ∑ i, (outerKz (er - kx i ^ 2 - ky i ^ 2)).re *
      (waveNorm kx ky (fun i => outerKz (er - kx i ^ 2 - ky i ^ 2)) p.fwd i -
        waveNorm kx ky (fun i => outerKz (er - kx i ^ 2 - ky i ^ 2)) p.bwd i) := by
  unfold fluxZ
  rw [Complex.im_sum, ← Finset.sum_neg_distrib]
  refine Finset.sum_congr rfl fun i _ => ?_
  simp only [outerField, maxwellQ_mulVec, Sum.elim_inl, Sum.elim_inr, Pi.add_apply, smul_mulVec,
    one_mulVec, Pi.smul_apply, smul_eq_mul, waveNorm, id]
  have hi := hg i
  have he' := he i
  generalize p.fwd (.inl i) = s1 at *
  generalize p.fwd (.inr i) = s2 at *
  generalize p.bwd (.inl i) = r1 at *
  generalize p.bwd (.inr i) = r2 at *
  generalize hx : er - kx i ^ 2 - ky i ^ 2 = x at *
  generalize kx i = a at *
  generalize ky i = b at *
  rcases lt_or_gt_of_ne hi with hneg | hpos
  · have hk : 0 < Real.sqrt (-x) := Real.sqrt_pos.2 (by linarith)
    rw [outerKz_neg hneg]
    generalize Real.sqrt (-x) = k at *
    have hd : ∀ z : ℂ, z / (Complex.I * (-Complex.I * (k : ℂ))) = ((k⁻¹ : ℝ) : ℂ) * z := by
      intro z
      have : Complex.I * (-Complex.I * (k : ℂ)) = k := by
        linear_combination (-(k : ℂ)) * Complex.I_mul_I
      rw [this]; push_cast; ring
    simp only [hd]
    generalize k⁻¹ = κ
    have hre : (-Complex.I * (k : ℂ)).re = 0 := by simp
    rw [hre, zero_mul]
    rcases he' hneg with ⟨rfl, rfl⟩ | ⟨rfl, rfl⟩
    · simp; ring
    · simp; ring
  · have hk : 0 < Real.sqrt x := Real.sqrt_pos.2 hpos
    have hk2 : Real.sqrt x ^ 2 = x := Real.sq_sqrt hpos.le
    rw [outerKz_pos hpos]
    generalize Real.sqrt x = k at *
    have hd : ∀ z : ℂ, z / (Complex.I * (k : ℂ)) = -(Complex.I * (((k⁻¹ : ℝ) : ℂ) * z)) := by
      intro z
      have : (k : ℂ) ≠ 0 := by exact_mod_cast hk.ne'
      push_cast
      field_simp
      rw [Complex.I_sq]; ring
    have hd' : ∀ z : ℂ, z / (k : ℂ) = ((k⁻¹ : ℝ) : ℂ) * z := by
      intro z; push_cast; ring
    simp only [hd, hd', normSq_re_im]
    have hκ : k * k⁻¹ = 1 := mul_inv_cancel₀ hk.ne'
    generalize k⁻¹ = κ at *
    have her : er = k ^ 2 + a ^ 2 + b ^ 2 := by rw [hk2, ← hx]; ring
    simp
    linear_combination (k * (s1.re ^ 2 + s1.im ^ 2 + s2.re ^ 2 + s2.im ^ 2 -
        (r1.re ^ 2 + r1.im ^ 2 + r2.re ^ 2 + r2.im ^ 2)) -
      κ * ((a * s1.re + b * s2.re) ^ 2 + (a * s1.im + b * s2.im) ^ 2 -
        ((a * r1.re + b * r2.re) ^ 2 + (a * r1.im + b * r2.im) ^ 2))) * hκ +
      κ * (s1.re ^ 2 + s1.im ^ 2 + s2.re ^ 2 + s2.im ^ 2 -
        (r1.re ^ 2 + r1.im ^ 2 + r2.re ^ 2 + r2.im ^ 2)) * her

section Chain
variable {N : ℕ} {jv1 : ℝ → ℝ} {e : Expansion N} {kx ky : Fin N → ℝ} {k0 : ℝ} {Ls : List (Layer N)}
  {Ms : List (Mat2 N × Mat2 N × ℝ)}

theorem fluxZ_chain_le (h : LayerEquations jv1 e kx ky k0 Ls Ms)
    (ha : ∀ l ∈ Ls, 0 ≤ l.depth * k0 ∧ ∀ C, Permittivity jv1 e l.form C → AbsorbingMat C)
    {F G : Tang (Fin N ⊕ Fin N)} (hc : MaxwellChain Ms F G) : fluxZ G ≤ fluxZ F := by
  unfold LayerEquations at h
  induction h generalizing F with
  | nil => exact le_of_eq (by rw [show F = G from hc])
  | @cons l M _ _ h1 _ ih =>
    obtain ⟨C, hC, hd, rfl⟩ := h1
    obtain ⟨K, hK, hc⟩ := hc
    obtain ⟨h0, habs⟩ := ha l (by simp)
    refine (ih (fun l hl => ha l (by simp [hl])) hc).trans ?_
    rw [maxwellTransfer_iff_flow.1 hK]
    have := power_flow_antitone (kx := kx) (ky := ky) hd (habs C hC) F h0
    simpa [flow_zero] using this

theorem fluxZ_chain_eq (h : LayerEquations jv1 e kx ky k0 Ls Ms)
    (ha : ∀ l ∈ Ls, ∀ C, Permittivity jv1 e l.form C → LosslessMat C)
    {F G : Tang (Fin N ⊕ Fin N)} (hc : MaxwellChain Ms F G) : fluxZ G = fluxZ F := by
  unfold LayerEquations at h
  induction h generalizing F with
  | nil => rw [show F = G from hc]
  | @cons l M _ _ h1 _ ih =>
    obtain ⟨C, hC, hd, rfl⟩ := h1
    obtain ⟨K, hK, hc⟩ := hc
    rw [ih (fun l hl => ha l (by simp [hl])) hc, maxwellTransfer_iff_flow.1 hK]
    exact power_flow_const hd (ha l (by simp) C hC) F _

end Chain

end Khepri
