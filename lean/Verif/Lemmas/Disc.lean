import Verif.Lemmas.Rectangle
import Verif.Spec.Islands
import Mathlib.MeasureTheory.Measure.Lebesgue.Complex
import Mathlib.MeasureTheory.Measure.Haar.InnerProductSpace
import Mathlib.MeasureTheory.Integral.Prod
import Mathlib.MeasureTheory.Group.Integral
import Mathlib.Analysis.Complex.Isometry

/-!
The Fourier integral of a disc.
-/

set_option linter.unusedSectionVars false

namespace Khepri

open Complex MeasureTheory

/-- The open disc of the plane. -/
def discSet (c0 c1 r : ℝ) : Set (ℝ × ℝ) := {p | (p.1 - c0) ^ 2 + (p.2 - c1) ^ 2 < r ^ 2}

theorem measurable_discSet (c0 c1 r : ℝ) : MeasurableSet (discSet c0 c1 r) := by
  apply IsOpen.measurableSet
  apply isOpen_lt <;> fun_prop

theorem discSet_bounded (c0 c1 r : ℝ) : discSet c0 c1 r ⊆ Set.Icc (c0 - |r|) (c0 + |r|) ×ˢ Set.Icc (c1 - |r|) (c1 + |r|) := by
  intro p hp
  have hp' : (p.1 - c0) ^ 2 + (p.2 - c1) ^ 2 < r ^ 2 := hp
  have h1 : |p.1 - c0| ≤ |r| := by
    apply abs_le_of_sq_le_sq' _ (abs_nonneg _) |> abs_le.2
    rw [sq_abs]; nlinarith [sq_nonneg (p.2 - c1)]
  have h2 : |p.2 - c1| ≤ |r| := by
    apply abs_le_of_sq_le_sq' _ (abs_nonneg _) |> abs_le.2
    rw [sq_abs]; nlinarith [sq_nonneg (p.1 - c0)]
  rw [abs_le] at h1 h2
  exact ⟨⟨by linarith, by linarith⟩, ⟨by linarith, by linarith⟩⟩

theorem discSet_finite (c0 c1 r : ℝ) : volume (discSet c0 c1 r) < ⊤ := by
  refine lt_of_le_of_lt (measure_mono (discSet_bounded c0 c1 r)) ?_
  rw [Measure.volume_eq_prod, Measure.prod_prod]
  exact ENNReal.mul_lt_top (by simp) (by simp)

/-- The waves are integrable over discs. -/
theorem integrableOn_wave (c0 c1 r : ℝ) (g : R2) :
    IntegrableOn (fun p : ℝ × ℝ => exp (-I * (g.1 * p.1 + g.2 * p.2 : ℝ))) (discSet c0 c1 r) := by
  refine Measure.integrableOn_of_bounded (M := 1) (discSet_finite c0 c1 r).ne ?_ ?_
  · exact (by fun_prop : Continuous fun p : ℝ × ℝ => exp (-I * (g.1 * p.1 + g.2 * p.2 : ℝ))).aestronglyMeasurable
  · exact Filter.Eventually.of_forall fun p => (norm_exp_I _).le

/-- Moving the centre multiplies by a phase. -/
theorem disc_translate (c0 c1 r : ℝ) (g : R2) :
    ∫ p in discSet c0 c1 r, exp (-I * (g.1 * p.1 + g.2 * p.2 : ℝ)) =
      exp (-I * (c0 * g.1 + c1 * g.2)) * ∫ p in discSet 0 0 r, exp (-I * (g.1 * p.1 + g.2 * p.2 : ℝ)) := by
  rw [← integral_indicator (measurable_discSet _ _ _), ← integral_indicator (measurable_discSet _ _ _),
    ← integral_const_mul]
  have : (volume : Measure (ℝ × ℝ)).IsAddRightInvariant := by
    rw [Measure.volume_eq_prod]; infer_instance
  rw [← integral_add_right_eq_self _ ((c0, c1) : ℝ × ℝ)]
  refine integral_congr_ae (Filter.Eventually.of_forall fun p => ?_)
  simp only
  by_cases hp : p ∈ discSet 0 0 r
  · have hp' : p + (c0, c1) ∈ discSet c0 c1 r := by
      simpa [discSet] using hp
    rw [Set.indicator_of_mem hp, Set.indicator_of_mem hp', ← exp_add]
    congr 1
    simp only [Prod.fst_add, Prod.snd_add]
    push_cast; ring
  · have hp' : p + (c0, c1) ∉ discSet c0 c1 r := by
      simpa [discSet] using hp
    rw [Set.indicator_of_notMem hp, Set.indicator_of_notMem hp', mul_zero]

/-- A wave over a centred disc only depends on the length of its wave vector. -/
theorem disc_rotate (r : ℝ) (g : R2) :
    ∫ p in discSet 0 0 r, exp (-I * (g.1 * p.1 + g.2 * p.2 : ℝ)) =
      ∫ p in discSet 0 0 r, exp (-I * (Real.sqrt (g.1 * g.1 + g.2 * g.2) * p.1 : ℝ)) := by
  set G : ℂ := ⟨g.1, g.2⟩ with hG
  have hnorm : Real.sqrt (g.1 * g.1 + g.2 * g.2) = ‖G‖ := by
    rw [Complex.norm_def, Complex.normSq_apply]
  rw [hnorm]
  by_cases h0 : G = 0
  · have h1 : g.1 = 0 := congrArg Complex.re h0
    have h2 : g.2 = 0 := congrArg Complex.im h0
    simp [h1, h2, h0]
  have hn : ‖G‖ ≠ 0 := norm_ne_zero_iff.2 h0
  let u : Circle := ⟨G / ‖G‖, by
    rw [Submonoid.unitSphere, Submonoid.mem_mk, Subsemigroup.mem_mk, mem_sphere_zero_iff_norm, norm_div, Complex.norm_real, norm_norm, div_self hn]⟩
  have hu : (u : ℂ) = G / ‖G‖ := rfl
  let e := Complex.measurableEquivRealProd
  have he : MeasurePreserving e := Complex.volume_preserving_equiv_real_prod
  have hr : MeasurePreserving (rotation u) := (rotation u).measurePreserving
  have key : ∀ (f : ℝ × ℝ → ℂ), ∫ p, f p = ∫ z : ℂ, f (e (rotation u z)) := by
    intro f
    rw [← he.integral_comp' (g := f)]
    rw [← hr.integral_comp (rotation u).toHomeomorph.measurableEmbedding]
  rw [← integral_indicator (measurable_discSet _ _ _), ← integral_indicator (measurable_discSet _ _ _), key,
    ← he.integral_comp' (g := (discSet 0 0 r).indicator fun p => exp (-I * (‖G‖ * p.1 : ℝ)))]
  refine integral_congr_ae (Filter.Eventually.of_forall fun z => ?_)
  simp only
  have hz : ∀ w : ℂ, e w = (w.re, w.im) := fun w => rfl
  have hmem : e (rotation u z) ∈ discSet 0 0 r ↔ e z ∈ discSet 0 0 r := by
    have : ∀ w : ℂ, e w ∈ discSet 0 0 r ↔ ‖w‖ ^ 2 < r ^ 2 := by
      intro w
      rw [hz, Complex.sq_norm, Complex.normSq_apply]
      simp only [discSet, Set.mem_ofPred_eq, sub_zero, ← sq]
    rw [this, this, LinearIsometryEquiv.norm_map]
  have hval : g.1 * (e (rotation u z)).1 + g.2 * (e (rotation u z)).2 = ‖G‖ * (e z).1 := by
    rw [hz, hz, rotation_apply, hu]
    simp only
    have hdiv : G / ‖G‖ * z = ((‖G‖⁻¹ : ℝ) : ℂ) * (G * z) := by push_cast; field_simp
    rw [hdiv, Complex.re_ofReal_mul, Complex.im_ofReal_mul, Complex.mul_re, Complex.mul_im]
    have hsq : ‖G‖ ^ 2 = g.1 ^ 2 + g.2 ^ 2 := by
      rw [Complex.sq_norm, Complex.normSq_apply]; simp only [hG]; ring
    have hre : G.re = g.1 := rfl
    have him : G.im = g.2 := rfl
    rw [hre, him]
    field_simp
    rw [hsq]
    ring
  by_cases hp : e z ∈ discSet 0 0 r
  · rw [Set.indicator_of_mem hp, Set.indicator_of_mem (hmem.2 hp), hval]
  · rw [Set.indicator_of_notMem hp, Set.indicator_of_notMem (hmem.not.2 hp)]

/-- Slicing a disc. -/
theorem disc_slices {r : ℝ} (hr : 0 < r) (a : ℝ) :
    ∫ p in discSet 0 0 r, exp (-I * (a * p.1 : ℝ)) =
      ∫ x in (-r)..r, (2 * Real.sqrt (r ^ 2 - x ^ 2) : ℝ) * exp (-I * (a * x : ℝ)) := by
  have hint : Integrable ((discSet 0 0 r).indicator fun p : ℝ × ℝ => exp (-I * (a * p.1 : ℝ))) := by
    have := integrableOn_wave 0 0 r (a, 0)
    simp only [zero_mul, add_zero] at this
    exact this.integrable_indicator (measurable_discSet _ _ _)
  rw [← integral_indicator (measurable_discSet _ _ _), Measure.volume_eq_prod, integral_prod _ hint,
    intervalIntegral.integral_of_le (by linarith), ← integral_indicator measurableSet_Ioc]
  refine integral_congr_ae ?_
  have hne : ∀ᵐ x : ℝ, x ≠ r := by
    rw [ae_iff]; simp
  filter_upwards [hne] with x hx
  by_cases hxr : x ∈ Set.Ioc (-r) r
  · rw [Set.indicator_of_mem hxr]
    have hlt : x < r := lt_of_le_of_ne hxr.2 hx
    have hpos : 0 < r ^ 2 - x ^ 2 := by nlinarith [hxr.1]
    set s := Real.sqrt (r ^ 2 - x ^ 2) with hs
    have hs0 : 0 ≤ s := Real.sqrt_nonneg _
    have hs2 : s ^ 2 = r ^ 2 - x ^ 2 := Real.sq_sqrt hpos.le
    have : (fun y => (discSet 0 0 r).indicator (fun p : ℝ × ℝ => exp (-I * (a * p.1 : ℝ))) (x, y)) =
        (Set.Ioo (-s) s).indicator fun _ => exp (-I * (a * x : ℝ)) := by
      funext y
      have hiff : (x, y) ∈ discSet 0 0 r ↔ y ∈ Set.Ioo (-s) s := by
        simp only [discSet, Set.mem_ofPred_eq, sub_zero, Set.mem_Ioo, ← abs_lt]
        rw [← sq_lt_sq₀ (abs_nonneg y) hs0, sq_abs, hs2]
        constructor <;> intro h <;> linarith
      by_cases hy : y ∈ Set.Ioo (-s) s
      · rw [Set.indicator_of_mem hy, Set.indicator_of_mem (hiff.2 hy)]
      · rw [Set.indicator_of_notMem hy, Set.indicator_of_notMem (hiff.not.2 hy)]
    rw [this, integral_indicator measurableSet_Ioo, setIntegral_const, Real.volume_real_Ioo_of_le (by linarith)]
    rw [Complex.real_smul]
    congr 2
    ring
  · rw [Set.indicator_of_notMem hxr]
    have : (fun y => (discSet 0 0 r).indicator (fun p : ℝ × ℝ => exp (-I * (a * p.1 : ℝ))) (x, y)) = fun _ => 0 := by
      funext y
      rw [Set.indicator_of_notMem]
      intro h
      simp only [discSet, Set.mem_ofPred_eq, sub_zero] at h
      apply hxr
      have : |x| < r := by
        rw [← sq_lt_sq₀ (abs_nonneg x) hr.le, sq_abs]
        nlinarith [sq_nonneg y]
      rw [abs_lt] at this
      exact ⟨this.1, this.2.le⟩
    rw [this, integral_zero]

theorem disc_scale {r : ℝ} (hr : 0 < r) (a : ℝ) :
    ∫ x in (-r)..r, (2 * Real.sqrt (r ^ 2 - x ^ 2) : ℝ) * exp (-I * (a * x : ℝ)) =
      ((2 * r ^ 2 * ∫ t in (-1 : ℝ)..1, Real.sqrt (1 - t ^ 2) * Real.cos (a * r * t) : ℝ) : ℂ) := by
  have h1' := intervalIntegral.smul_integral_comp_mul_left (a := -1) (b := 1)
    (f := fun x : ℝ => ((2 * Real.sqrt (r ^ 2 - x ^ 2) : ℝ) : ℂ) * exp (-I * (a * x : ℝ))) r
  rw [mul_neg, mul_one] at h1'
  rw [← h1']
  have hsq : ∀ t : ℝ, Real.sqrt (r ^ 2 - (r * t) ^ 2) = r * Real.sqrt (1 - t ^ 2) := by
    intro t
    rw [show r ^ 2 - (r * t) ^ 2 = r ^ 2 * (1 - t ^ 2) by ring, Real.sqrt_mul (sq_nonneg r), Real.sqrt_sq hr.le]
  have hexp : ∀ t : ℝ, ((2 * Real.sqrt (r ^ 2 - (r * t) ^ 2) : ℝ) : ℂ) * exp (-I * (a * (r * t) : ℝ)) =
      ((2 * r * (Real.sqrt (1 - t ^ 2) * Real.cos (a * r * t)) : ℝ) : ℂ) -
        I * ((2 * r * (Real.sqrt (1 - t ^ 2) * Real.sin (a * r * t)) : ℝ) : ℂ) := by
    intro t
    rw [hsq]
    have : exp (-I * (a * (r * t) : ℝ)) = Real.cos (a * r * t) - I * Real.sin (a * r * t) := by
      rw [show -I * (a * (r * t) : ℝ) = ((-(a * r * t) : ℝ) : ℂ) * I by push_cast; ring, exp_mul_I]
      push_cast
      rw [Complex.cos_neg, Complex.sin_neg]
      ring
    rw [this]
    push_cast
    ring
  simp_rw [hexp]
  have hc1 : Continuous fun t : ℝ => 2 * r * (Real.sqrt (1 - t ^ 2) * Real.cos (a * r * t)) := by fun_prop
  have hc2 : Continuous fun t : ℝ => 2 * r * (Real.sqrt (1 - t ^ 2) * Real.sin (a * r * t)) := by fun_prop
  rw [intervalIntegral.integral_sub
    (f := fun t : ℝ => ((2 * r * (Real.sqrt (1 - t ^ 2) * Real.cos (a * r * t)) : ℝ) : ℂ))
    (g := fun t : ℝ => I * ((2 * r * (Real.sqrt (1 - t ^ 2) * Real.sin (a * r * t)) : ℝ) : ℂ))
    ((continuous_ofReal.comp hc1).intervalIntegrable _ _)
    ((continuous_const.mul (continuous_ofReal.comp hc2)).intervalIntegrable _ _)]
  rw [intervalIntegral.integral_const_mul, intervalIntegral.integral_ofReal, intervalIntegral.integral_ofReal]
  have hodd : ∫ t in (-1 : ℝ)..1, 2 * r * (Real.sqrt (1 - t ^ 2) * Real.sin (a * r * t)) = 0 := by
    have h := intervalIntegral.integral_comp_neg (a := -1) (b := 1)
      (fun t : ℝ => 2 * r * (Real.sqrt (1 - t ^ 2) * Real.sin (a * r * t)))
    simp only [neg_neg, neg_sq, mul_neg, Real.sin_neg] at h
    rw [intervalIntegral.integral_neg] at h
    linarith
  rw [hodd, intervalIntegral.integral_const_mul]
  simp only [Complex.real_smul]
  push_cast
  ring

/-- The Fourier integral of a disc. -/
theorem disc_fourier {jv1 : ℝ → ℝ} (hJ : BesselOne jv1) {c0 c1 r : ℝ} (hr : 0 < r) {g : R2}
    (hg : g ≠ 0) : ∫ p in discSet c0 c1 r, exp (-I * (g.1 * p.1 + g.2 * p.2 : ℝ)) =
      (Real.pi * r ^ 2 * 2 : ℝ) * exp (-I * (c0 * g.1 + c1 * g.2)) *
        (jv1 (Real.sqrt (g.1 * g.1 + g.2 * g.2) * r) : ℂ) / (Real.sqrt (g.1 * g.1 + g.2 * g.2) * r : ℝ) := by
  rw [disc_translate, disc_rotate, disc_slices hr, disc_scale hr, hJ]
  set a := Real.sqrt (g.1 * g.1 + g.2 * g.2) with ha
  have ha0 : a ≠ 0 := by
    rw [ha, Real.sqrt_ne_zero']
    by_contra h
    apply hg
    have h1 := mul_self_nonneg g.1
    have h2 := mul_self_nonneg g.2
    push Not at h
    exact Prod.ext (mul_self_eq_zero.1 (by linarith)) (mul_self_eq_zero.1 (by linarith))
  have h1 : (a : ℂ) ≠ 0 := by exact_mod_cast ha0
  have h2 : (r : ℂ) ≠ 0 := by exact_mod_cast hr.ne'
  have h3 : (Real.pi : ℂ) ≠ 0 := by exact_mod_cast Real.pi_ne_zero
  generalize (∫ t in (-1 : ℝ)..1, Real.sqrt (1 - t ^ 2) * Real.cos (a * r * t)) = J
  push_cast
  field_simp

/-- The area of a disc. -/
theorem disc_area {c0 c1 r : ℝ} (hr : 0 < r) : ∫ p in discSet c0 c1 r, exp (-I * ((0 : ℝ) * p.1 + (0 : ℝ) * p.2 : ℝ)) =
    (Real.pi * r ^ 2 : ℝ) := by
  have h := disc_translate c0 c1 r (0, 0)
  simp only at h
  rw [h]
  have h2 := disc_slices hr 0
  have h3 := disc_scale hr 0
  simp only [zero_mul, add_zero] at h2 h3 ⊢
  rw [h2, h3]
  have : ∫ t in (-1 : ℝ)..1, Real.sqrt (1 - t ^ 2) * Real.cos 0 = Real.pi / 2 := by
    simp [integral_sqrt_one_sub_sq]
  rw [this]
  push_cast
  simp
  ring

end Khepri
