import Verif.Lemmas.Disc
import Verif.Lemmas.Analytical

/-!
Analytical transforms against Fourier integrals.
-/

set_option linter.unusedSectionVars false

namespace Khepri

open Complex MeasureTheory

theorem rect_iterated (a b c d : ℝ) (g : R2) :
    ∫ x in a..c, ∫ y in b..d, planeWave g (x, y) =
      ((c - a) * (d - b) : ℝ) * phi1 (-I * g.1 * (c - a : ℝ)) * phi1 (-I * g.2 * (d - b : ℝ)) *
        exp (-I * (a * g.1 + b * g.2)) := by
  have h1 : ∀ x y : ℝ, planeWave g (x, y) = exp (-I * (g.1 * x)) * exp (-I * (g.2 * y)) := by
    intro x y
    rw [planeWave, ← exp_add]; congr 1; push_cast; ring
  simp_rw [h1, intervalIntegral.integral_const_mul, intervalIntegral.integral_mul_const]
  rw [integral_wave, integral_wave]
  have : exp (-I * (a * g.1 + b * g.2)) = exp (-I * (a * g.1)) * exp (-I * (b * g.2)) := by
    rw [← exp_add]; congr 1; ring
  rw [this]
  push_cast
  ring

theorem mul_arg (x y : ℝ) : -I * (x : ℂ) * (y : ℝ) = -I * ((x * y : ℝ) : ℂ) := by push_cast; ring

theorem rect_bound (a b c d : ℝ) (g : R2) (sigma : ℝ) :
    ‖transformRectangle a b c d g sigma - 1 / sigma * ∫ x in a..c, ∫ y in b..d, planeWave g (x, y)‖ ≤
      |(c - a) * (d - b) / sigma| / 10 ^ 18 := by
  rw [rect_iterated]
  have e1 := fexpz_err (-I * g.1 * (c - a : ℝ))
  have e2 := fexpz_err (-I * g.2 * (d - b : ℝ))
  have p1 := phi1_norm_le (g.1 * (c - a))
  have p2 := phi1_norm_le (g.2 * (d - b))
  rw [← mul_arg] at p1 p2
  set f1 := fexpz (-I * g.1 * (c - a : ℝ)) with hf1
  set f2 := fexpz (-I * g.2 * (d - b : ℝ)) with hf2
  set q1 := phi1 (-I * g.1 * (c - a : ℝ)) with hq1
  set q2 := phi1 (-I * g.2 * (d - b : ℝ)) with hq2
  have hx : ‖exp (-I * (a * g.1 + b * g.2))‖ = 1 := by
    have := norm_exp_I (a * g.1 + b * g.2)
    push_cast at this; exact this
  have e : transformRectangle a b c d g sigma - 1 / sigma *
      (((c - a) * (d - b) : ℝ) * q1 * q2 * exp (-I * (a * g.1 + b * g.2))) =
      (((c - a) * (d - b) / sigma : ℝ) : ℂ) * ((f1 - q1) * (f2 - q2) + (f1 - q1) * q2 + q1 * (f2 - q2)) *
        exp (-I * (a * g.1 + b * g.2)) := by
    simp only [transformRectangle]
    rw [← hf1, ← hf2]
    push_cast
    ring
  rw [e, norm_mul, hx, mul_one, norm_mul, Complex.norm_real, Real.norm_eq_abs, div_eq_mul_inv |(c - a) * (d - b) / sigma|]
  refine mul_le_mul_of_nonneg_left ?_ (abs_nonneg _)
  refine (norm_add_le _ _).trans ?_
  refine (add_le_add_left (norm_add_le _ _) _).trans ?_
  simp only [norm_mul]
  have n1 := norm_nonneg (f1 - q1)
  have n2 := norm_nonneg (f2 - q2)
  have m1 : ‖f1 - q1‖ * ‖f2 - q2‖ ≤ 1 / (3 * 10 ^ 18) * (1 / (3 * 10 ^ 18)) :=
    mul_le_mul e1 e2 n2 (by positivity)
  have m2 : ‖f1 - q1‖ * ‖q2‖ ≤ 1 / (3 * 10 ^ 18) * 1 := mul_le_mul e1 p2 (norm_nonneg _) (by positivity)
  have m3 : ‖q1‖ * ‖f2 - q2‖ ≤ 1 * (1 / (3 * 10 ^ 18)) := mul_le_mul p1 e2 n2 (by positivity)
  norm_num at m1 m2 m3 ⊢
  linarith

theorem rect_exact {a b c d : ℝ} {g : R2} (sigma : ℝ) (h1 : g.1 * (c - a) = 0 ∨ 1 / 100 < |g.1 * (c - a)|)
    (h2 : g.2 * (d - b) = 0 ∨ 1 / 100 < |g.2 * (d - b)|) :
    transformRectangle a b c d g sigma = 1 / sigma * ∫ x in a..c, ∫ y in b..d, planeWave g (x, y) := by
  have key : ∀ x y : ℝ, (x * y = 0 ∨ 1 / 100 < |x * y|) → fexpz (-I * x * (y : ℝ)) = phi1 (-I * x * (y : ℝ)) := by
    intro x y h
    rw [mul_arg]
    rcases h with h | h
    · rw [h]; simp [fexpz_zero, phi1]
    · refine fexpz_big ?_
      rw [norm_mul, norm_neg, norm_I, one_mul, Complex.norm_real, Real.norm_eq_abs]
      exact h
  rw [rect_iterated]
  simp only [transformRectangle]
  rw [key _ _ h1, key _ _ h2]
  push_cast
  ring

/-- Fourier integral over the region of an island. -/
theorem region_rect {a b c d : ℝ} (eps : ℂ) (h1 : a ≤ c) (h2 : b ≤ d) (g : R2) :
    MeasurableSet (Island.region ⟨.rectangle a b c d, eps⟩) ∧
    IntegrableOn (planeWave g) (Island.region ⟨.rectangle a b c d, eps⟩) ∧
    ∫ p in Island.region ⟨.rectangle a b c d, eps⟩, planeWave g p = ∫ x in a..c, ∫ y in b..d, planeWave g (x, y) := by
  have hr : Island.region ⟨.rectangle a b c d, eps⟩ = Set.Icc a c ×ˢ Set.Icc b d := by
    ext p; rw [Set.mem_prod]; rfl
  have hcont : Continuous (planeWave g) := by unfold planeWave; fun_prop
  have hm : MeasurableSet (Set.Icc a c ×ˢ Set.Icc b d) := measurableSet_Icc.prod measurableSet_Icc
  have hint : IntegrableOn (planeWave g) (Set.Icc a c ×ˢ Set.Icc b d) :=
    hcont.continuousOn.integrableOn_compact (isCompact_Icc.prod isCompact_Icc)
  rw [hr]
  refine ⟨hm, hint, ?_⟩
  rw [Measure.volume_eq_prod] at hint ⊢
  rw [setIntegral_prod _ hint, intervalIntegral.integral_of_le h1, integral_Icc_eq_integral_Ioc]
  refine setIntegral_congr_fun measurableSet_Ioc fun x _ => ?_
  rw [intervalIntegral.integral_of_le h2, integral_Icc_eq_integral_Ioc]

theorem region_disc {a b r : ℝ} (eps : ℂ) (hr : 0 < r) (g : R2) :
    MeasurableSet (Island.region ⟨.disc a b r, eps⟩) ∧ IntegrableOn (planeWave g) (Island.region ⟨.disc a b r, eps⟩) ∧
    ∫ p in Island.region ⟨.disc a b r, eps⟩, planeWave g p =
      ∫ p in discSet a b r, exp (-I * (g.1 * p.1 + g.2 * p.2 : ℝ)) := by
  have hd : Island.region ⟨.disc a b r, eps⟩ = discSet a b r := by
    ext p; simp [Island.region, Island.Covers, discSet, hr.le]
  rw [hd]
  exact ⟨measurable_discSet a b r, integrableOn_wave a b r g, rfl⟩

theorem disc_transform {jv1 : ℝ → ℝ} (hJ : BesselOne jv1) {a b r : ℝ} (hr : 0 < r) {g : R2} (hg : ClearOf g)
    (sigma : ℝ) : transformDisc jv1 a b r g sigma =
      .ok (1 / sigma * ∫ p in discSet a b r, exp (-I * (g.1 * p.1 + g.2 * p.2 : ℝ))) := by
  unfold transformDisc
  rcases hg with rfl | hg
  · simp only [Prod.fst_zero, Prod.snd_zero, abs_zero]
    rw [if_pos (by constructor <;> positivity), disc_area hr]
    simp only [pure, Except.pure, Except.ok.injEq]
    push_cast
    ring
  · have hne : g ≠ 0 := by
      rintro rfl
      rcases hg with h | h <;> simp at h <;> norm_num at h
    have hw : ¬(|g.1| ≤ 1 / 10 ^ 8 ∧ |g.2| ≤ 1 / 10 ^ 8) := by
      rintro ⟨h1, h2⟩
      rcases hg with h | h <;> linarith
    have hs : Real.sqrt (g.1 * g.1 + g.2 * g.2) * r ≠ 0 := by
      refine mul_ne_zero ?_ hr.ne'
      rw [Real.sqrt_ne_zero']
      by_contra h
      apply hne
      have h1 := mul_self_nonneg g.1
      have h2 := mul_self_nonneg g.2
      push Not at h
      exact Prod.ext (mul_self_eq_zero.1 (by linarith)) (mul_self_eq_zero.1 (by linarith))
    simp only
    rw [if_neg hw, if_neg hs, disc_fourier hJ hr hne]
    simp only [pure, Except.pure]
    congr 1
    push_cast
    ring

/-- Every proper island has a transform, close to the Fourier integral of its region. -/
theorem shape_transform {jv1 : ℝ → ℝ} (hJ : BesselOne jv1) (s : Island) (hs : s.shape.Proper) {g : R2}
    (hg : ClearOf g) (sigma : ℝ) : MeasurableSet s.region ∧ IntegrableOn (planeWave g) s.region ∧
      ∃ t, transformShape jv1 s.shape g sigma = .ok t ∧
        ‖t - 1 / sigma * ∫ p in s.region, planeWave g p‖ ≤ |s.shape.rectArea / sigma| / 10 ^ 18 := by
  obtain ⟨sh, eps⟩ := s
  cases sh with
  | rectangle a b c d =>
    obtain ⟨m, i, e⟩ := region_rect eps hs.1 hs.2 g
    refine ⟨m, i, _, rfl, ?_⟩
    rw [e]
    exact rect_bound a b c d g sigma
  | disc a b r =>
    obtain ⟨m, i, e⟩ := region_disc (a := a) (b := b) eps hs g
    refine ⟨m, i, _, disc_transform hJ hs hg sigma, ?_⟩
    rw [e, sub_self, norm_zero]
    positivity
  | ellipse => exact absurd hs (by simp [Shape.Proper])

open Classical in
/-- The Fourier integral of what islands add to the host. -/
theorem integral_islandSum {islands : List Island} (host : ℂ) (g : R2)
    (h : ∀ s ∈ islands, MeasurableSet s.region ∧ IntegrableOn (planeWave g) s.region) :
    Integrable (fun p => (islandSum islands host p - host) * planeWave g p) ∧
    ∫ p, (islandSum islands host p - host) * planeWave g p =
      (islands.map fun s => (s.eps - host) * ∫ p in s.region, planeWave g p).sum := by
  induction islands with
  | nil => simp [islandSum]
  | cons s islands ih =>
    obtain ⟨ih1, ih2⟩ := ih fun s hs => h s (List.mem_cons_of_mem _ hs)
    obtain ⟨hm, hi⟩ := h s List.mem_cons_self
    have e : (fun p => (islandSum (s :: islands) host p - host) * planeWave g p) = fun p =>
        (s.eps - host) * s.region.indicator (planeWave g) p + (islandSum islands host p - host) * planeWave g p := by
      funext p
      simp only [islandSum, List.filter_cons, add_sub_cancel_left]
      by_cases hp : s.Covers p
      · have : p ∈ s.region := hp
        rw [Set.indicator_of_mem this]
        simp only [hp, decide_true, if_true, List.map_cons, List.sum_cons]
        ring
      · have : p ∉ s.region := hp
        rw [Set.indicator_of_notMem this]
        simp only [hp, decide_false, Bool.false_eq_true, if_false]
        ring
    have hi' : Integrable fun p => (s.eps - host) * s.region.indicator (planeWave g) p :=
      (hi.integrable_indicator hm).const_mul _
    rw [e]
    refine ⟨hi'.add ih1, ?_⟩
    rw [integral_add hi' ih1, ih2, integral_const_mul, integral_indicator hm, List.map_cons, List.sum_cons]

theorem latticeVec_eq (b : R2 × R2) (mn : ℤ × ℤ) :
    latticeVec b mn = (mn.1 * b.1.1 + mn.2 * b.2.1, mn.1 * b.1.2 + mn.2 * b.2.2) := by
  simp only [latticeVec]; ext <;> simp only <;> ring

/-- The table of coefficients of the analytical formulation. -/
theorem islandCoef_near {jv1 : ℝ → ℝ} (hJ : BesselOne jv1) {b : R2 × R2} (hb : Periods b) {sigma : ℝ}
    {islands : List Island} (hs : ∀ s ∈ islands, s.shape.Proper) (host : ℂ) (mn : ℤ × ℤ) :
    ‖islandCoef jv1 b sigma islands host mn - patternCoef islands host b sigma mn‖ ≤
      (islands.map fun s => ‖s.eps - host‖ * |s.shape.rectArea / sigma|).sum / 10 ^ 18 := by
  have hg := hb mn
  rw [← latticeVec_eq] at hg
  have hreg : ∀ s ∈ islands, MeasurableSet s.region ∧ IntegrableOn (planeWave (latticeVec b mn)) s.region :=
    fun s h => ⟨(shape_transform hJ s (hs s h) hg sigma).1, (shape_transform hJ s (hs s h) hg sigma).2.1⟩
  rw [islandCoef, patternCoef, ← latticeVec_eq, (integral_islandSum host _ hreg).2, add_sub_add_left_eq_sub]
  clear hreg
  induction islands with
  | nil => simp
  | cons s islands ih =>
    obtain ⟨-, -, t, ht, hb⟩ := shape_transform hJ s (hs s List.mem_cons_self) hg sigma
    have := ih fun s h => hs s (List.mem_cons_of_mem _ h)
    simp only [List.map_cons, List.sum_cons]
    rw [shapeValue_of ht, mul_add]
    have e : ∀ x y u v : ℂ, x + y - (u + v) = (x - u) + (y - v) := by intros; ring
    rw [e, add_div]
    refine (norm_add_le _ _).trans (add_le_add ?_ this)
    have e2 : (s.eps - host) * t - 1 / sigma * ((s.eps - host) * ∫ p in s.region, planeWave (latticeVec b mn) p) =
        (s.eps - host) * (t - 1 / sigma * ∫ p in s.region, planeWave (latticeVec b mn) p) := by ring
    rw [e2, norm_mul, mul_div_assoc]
    exact mul_le_mul_of_nonneg_left hb (norm_nonneg _)

theorem table_square {P r c : ℕ} (hP : P % 2 = 1) (hr : r < P * P) (hc : c < P * P) :
    orderAt (triple P, triple P) (tablePos (P, P) r c) = ((diffAt P r c).2, (diffAt P r c).1) := by
  obtain ⟨b1, b2⟩ := diffAt_bound hr hc
  obtain ⟨t1, t2⟩ := triple_bound hP b1
  obtain ⟨t3, t4⟩ := triple_bound hP b2
  have ho := triple_odd hP
  simp only [orderAt, tablePos]
  generalize diffAt P r c = d at *
  generalize triple P = E at *
  have hj : (((E / 2 : ℕ) : ℤ) + d.2).toNat < E := by omega
  have h0 : 0 < E := by omega
  rw [Nat.add_comm (_ * E), Nat.add_mul_mod_self_right, Nat.mod_eq_of_lt hj, Nat.add_mul_div_right _ _ h0, Nat.div_eq_of_lt hj]
  ext <;> simp only <;> omega

theorem table_first {P r c : ℕ} (hP : P % 2 = 1) (hr : r < P * 1) (hc : c < P * 1) :
    orderAt (triple P, triple 1) (tablePos (P, 1) r c) = diffAt P r c := by
  obtain ⟨b1, b2⟩ := diffAt_bound hr hc
  obtain ⟨t1, t2⟩ := triple_bound hP b1
  have ho := triple_odd hP
  have h1 : triple 1 = 1 := rfl
  simp only [orderAt, tablePos, h1]
  generalize diffAt P r c = d at *
  generalize triple P = E at *
  rw [abs_lt] at b2
  have h2 : d.2 = 0 := by omega
  have hj : (((E / 2 : ℕ) : ℤ) + d.1).toNat < E := by omega
  rw [h2]
  have : (((1 / 2 : ℕ) : ℤ) + 0).toNat = 0 := rfl
  rw [this, mul_one, add_zero, Nat.mod_eq_of_lt hj, Nat.div_eq_of_lt hj]
  ext <;> simp only <;> omega

theorem table_second {Q r c : ℕ} (hQ : Q % 2 = 1) (hr : r < 1 * Q) (hc : c < 1 * Q) :
    orderAt (triple 1, triple Q) (tablePos (1, Q) r c) = diffAt 1 r c := by
  obtain ⟨b1, b2⟩ := diffAt_bound hr hc
  obtain ⟨t1, t2⟩ := triple_bound hQ b2
  have ho := triple_odd hQ
  have h1 : triple 1 = 1 := rfl
  simp only [orderAt, tablePos, h1]
  generalize diffAt 1 r c = d at *
  generalize triple Q = E at *
  rw [abs_lt] at b1
  have h2 : d.1 = 0 := by omega
  rw [h2]
  have : (((1 / 2 : ℕ) : ℤ) + 0).toNat = 0 := rfl
  rw [this, zero_mul, zero_add, Nat.mod_one, Nat.div_one]
  ext <;> simp only <;> omega

end Khepri
