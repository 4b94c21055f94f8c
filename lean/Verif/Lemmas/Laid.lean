import Verif.Spec.Laid
import Verif.Lemmas.Islands
import Mathlib.Algebra.Order.Chebyshev
import Mathlib.MeasureTheory.Function.Jacobian
import Mathlib.Analysis.SpecialFunctions.PolarCoord

/-!
Orthogonality of the plane waves of a lattice over its cell, and the quadratic form of a pattern of islands.
-/

set_option linter.unusedSectionVars false

namespace Khepri

open Complex MeasureTheory Matrix

/-- Coordinates in the cell. -/
noncomputable def cellMap (lat : R2 × R2) (o : R2) (q : R2) : R2 :=
  (o.1 + q.1 * lat.1.1 + q.2 * lat.2.1, o.2 + q.1 * lat.1.2 + q.2 * lat.2.2)

noncomputable def cellLin (lat : R2 × R2) : R2 →L[ℝ] R2 :=
  (Matrix.toLin (.finTwoProd ℝ) (.finTwoProd ℝ) !![lat.1.1, lat.2.1; lat.1.2, lat.2.2]).toContinuousLinearMap

theorem cell_image (lat : R2 × R2) (o : R2) :
    Cell lat o = cellMap lat o '' (Set.Icc (0 : ℝ) 1 ×ˢ Set.Icc (0 : ℝ) 1) := by
  ext p
  simp only [Cell, cellMap, Set.mem_ofPred_eq, Set.mem_image, Set.mem_prod, Prod.exists]
  constructor
  · rintro ⟨x, hx, y, hy, rfl⟩; exact ⟨x, y, ⟨hx, hy⟩, rfl⟩
  · rintro ⟨x, y, ⟨hx, hy⟩, rfl⟩; exact ⟨x, hx, y, hy, rfl⟩

theorem cellLin_apply (lat : R2 × R2) (q : R2) :
    cellLin lat q = (q.1 * lat.1.1 + q.2 * lat.2.1, q.1 * lat.1.2 + q.2 * lat.2.2) := by
  unfold cellLin
  rw [Matrix.toLin_finTwoProd_toContinuousLinearMap]
  simp [mul_comm]

theorem cellMap_fderiv (lat : R2 × R2) (o q : R2) : HasFDerivAt (cellMap lat o) (cellLin lat) q := by
  have : cellMap lat o = fun q => o + cellLin lat q := by
    funext q
    rw [cellLin_apply]
    ext <;> simp [cellMap, add_assoc]
  rw [this]
  exact (cellLin lat).hasFDerivAt.const_add o

theorem cellLin_det (lat : R2 × R2) : (cellLin lat).det = lat.1.1 * lat.2.2 - lat.1.2 * lat.2.1 := by
  unfold cellLin
  simp only [LinearMap.det_toContinuousLinearMap, LinearMap.det_toLin, Matrix.det_fin_two_of]
  ring

theorem cellMap_injective {lat : R2 × R2} (h : lat.1.1 * lat.2.2 - lat.1.2 * lat.2.1 ≠ 0) (o : R2) :
    Function.Injective (cellMap lat o) := by
  rintro ⟨x, y⟩ ⟨x', y'⟩ hq
  simp only [cellMap, Prod.mk.injEq] at hq
  obtain ⟨h1, h2⟩ := hq
  have e1 : (x - x') * (lat.1.1 * lat.2.2 - lat.1.2 * lat.2.1) = 0 := by linear_combination lat.2.2 * h1 - lat.2.1 * h2
  have e2 : (y - y') * (lat.1.1 * lat.2.2 - lat.1.2 * lat.2.1) = 0 := by linear_combination lat.1.1 * h2 - lat.1.2 * h1
  have a1 := (mul_eq_zero.1 e1).resolve_right h
  have a2 := (mul_eq_zero.1 e2).resolve_right h
  ext <;> simp only <;> linarith

theorem cell_compact (lat : R2 × R2) (o : R2) : IsCompact (Cell lat o) := by
  rw [cell_image]
  exact (isCompact_Icc.prod isCompact_Icc).image (by unfold cellMap; fun_prop)

theorem planeWave_continuous (g : R2) : Continuous (planeWave g) := by unfold planeWave; fun_prop

theorem phi1_period {m : ℤ} (h : m ≠ 0) : phi1 (-I * ((2 * Real.pi * m : ℝ) : ℂ) * ((1 - 0 : ℝ) : ℂ)) = 0 := by
  unfold phi1
  have hpi : (Real.pi : ℂ) ≠ 0 := by exact_mod_cast Real.pi_ne_zero
  have hm : (m : ℂ) ≠ 0 := by exact_mod_cast h
  rw [if_neg (by push_cast; simp [hpi, hm])]
  have : exp (-I * ((2 * Real.pi * m : ℝ) : ℂ) * ((1 - 0 : ℝ) : ℂ)) = 1 := by
    rw [show -I * ((2 * Real.pi * m : ℝ) : ℂ) * ((1 - 0 : ℝ) : ℂ) = ((-m : ℤ) : ℂ) * (2 * Real.pi * I) by push_cast; ring]
    exact exp_int_mul_two_pi_mul_I _
  rw [this, sub_self, zero_div]

/-- Plane waves of the lattice are orthogonal over the cell. -/
theorem integral_cell_wave {lat b : R2 × R2} (hb : reciproc lat.1 lat.2 = .ok b) (o : R2) (mn : ℤ × ℤ) :
    ∫ p in Cell lat o, planeWave (latticeVec b mn) p = if mn = 0 then (unitCellArea lat.1 lat.2 : ℂ) else 0 := by
  obtain ⟨hdet, rfl⟩ := reciproc_eq_ok.1 hb
  rw [cell_image, integral_image_eq_integral_abs_det_fderiv_smul volume
    (measurableSet_Icc.prod measurableSet_Icc) (fun q _ => (cellMap_fderiv lat o q).hasFDerivWithinAt)
    (cellMap_injective hdet o).injOn, cellLin_det]
  set D := lat.1.1 * lat.2.2 - lat.1.2 * lat.2.1 with hD
  set k : ℂ := planeWave (latticeVec ((lat.2.2 * (2 * Real.pi / D), -lat.2.1 * (2 * Real.pi / D)),
    -lat.1.2 * (2 * Real.pi / D), lat.1.1 * (2 * Real.pi / D)) mn) o with hk
  have e : ∀ q : R2, planeWave (latticeVec ((lat.2.2 * (2 * Real.pi / D), -lat.2.1 * (2 * Real.pi / D)),
      -lat.1.2 * (2 * Real.pi / D), lat.1.1 * (2 * Real.pi / D)) mn) (cellMap lat o q) =
      k * planeWave (2 * Real.pi * mn.1, 2 * Real.pi * mn.2) q := by
    intro q
    rw [hk, planeWave, planeWave, planeWave, ← exp_add, ← mul_add, ← ofReal_add]
    congr 3
    simp only [latticeVec, cellMap]
    field_simp
    rw [hD]; ring
  simp only [e]
  rw [integral_smul, integral_const_mul]
  have hr := (region_rect (a := 0) (b := 0) (c := 1) (d := 1) 0 zero_le_one zero_le_one
    (2 * Real.pi * mn.1, 2 * Real.pi * mn.2)).2.2
  have hreg : Island.region ⟨.rectangle 0 0 1 1, 0⟩ = Set.Icc (0 : ℝ) 1 ×ˢ Set.Icc (0 : ℝ) 1 := by
    ext p; rw [Set.mem_prod]; rfl
  rw [hreg, rect_iterated] at hr
  rw [hr]
  split_ifs with h
  · subst h
    have hk1 : k = 1 := by rw [hk]; simp [latticeVec, planeWave]
    simp [hk1, phi1, unitCellArea, hD]
  · have h' : mn.1 ≠ 0 ∨ mn.2 ≠ 0 := by
      by_contra hc
      push Not at hc
      exact h (Prod.ext hc.1 hc.2)
    rcases h' with h' | h'
    · rw [phi1_period h']; simp
    · rw [phi1_period h']; simp

/-- The superposition of plane waves with the given amplitudes. -/
noncomputable def superpose {n : Type} [Fintype n] (b : R2 × R2) (φ : n → ℤ × ℤ) (u : n → ℂ) (p : R2) : ℂ :=
  ∑ c, u c * star (planeWave (latticeVec b (φ c)) p)

theorem planeWave_sub (b : R2 × R2) (x y : ℤ × ℤ) (p : R2) :
    planeWave (latticeVec b (x - y)) p = planeWave (latticeVec b x) p * star (planeWave (latticeVec b y) p) := by
  simp only [planeWave, latticeVec]
  rw [show star (exp _) = (starRingEnd ℂ) (exp _) from rfl, ← exp_conj, ← exp_add]
  congr 1
  simp only [map_mul, map_neg, conj_I, conj_ofReal]
  push_cast
  simp only [Prod.fst_sub, Prod.snd_sub]
  push_cast
  ring

variable {n : Type} [Fintype n]

theorem superpose_norm (b : R2 × R2) (φ : n → ℤ × ℤ) (u : n → ℂ) (p : R2) :
    ∑ r, ∑ c, star (u r) * u c * planeWave (latticeVec b (φ r - φ c)) p = ((‖superpose b φ u p‖ ^ 2 : ℝ) : ℂ) := by
  have : ((‖superpose b φ u p‖ ^ 2 : ℝ) : ℂ) = star (superpose b φ u p) * superpose b φ u p := by
    rw [show star (superpose b φ u p) = (starRingEnd ℂ) _ from rfl, ← normSq_eq_conj_mul_self, normSq_eq_norm_sq]
  rw [this, superpose, star_sum, Finset.sum_mul_sum]
  refine Finset.sum_congr rfl fun r _ => Finset.sum_congr rfl fun c _ => ?_
  rw [planeWave_sub, star_mul', star_star]
  ring

theorem superpose_continuous (b : R2 × R2) (φ : n → ℤ × ℤ) (u : n → ℂ) : Continuous (superpose b φ u) := by
  unfold superpose
  exact continuous_finsetSum _ fun c _ => continuous_const.mul (continuous_star.comp (planeWave_continuous _))

/-- The quadratic form of integrals of plane waves over a bounded set. -/
theorem quad_integral (b : R2 × R2) (φ : n → ℤ × ℤ) (u : n → ℂ) {R : Set R2}
    (hi : ∀ g, IntegrableOn (planeWave g) R) :
    ∑ r, ∑ c, star (u r) * u c * ∫ p in R, planeWave (latticeVec b (φ r - φ c)) p =
      ((∫ p in R, ‖superpose b φ u p‖ ^ 2 : ℝ) : ℂ) := by
  rw [← integral_complex_ofReal]
  simp only [← superpose_norm]
  rw [integral_finsetSum _ fun r _ => integrable_finsetSum _ fun c _ => (hi _).const_mul _]
  refine Finset.sum_congr rfl fun r _ => ?_
  rw [integral_finsetSum _ fun c _ => (hi _).const_mul _]
  refine Finset.sum_congr rfl fun c _ => ?_
  rw [integral_const_mul]

/-- Parseval over the cell. -/
theorem cell_parseval {lat b : R2 × R2} (hb : reciproc lat.1 lat.2 = .ok b) (o : R2) {φ : n → ℤ × ℤ}
    (hφ : Function.Injective φ) (u : n → ℂ) :
    ∫ p in Cell lat o, ‖superpose b φ u p‖ ^ 2 = unitCellArea lat.1 lat.2 * ∑ i, ‖u i‖ ^ 2 := by
  classical
  have hi : ∀ g, IntegrableOn (planeWave g) (Cell lat o) := fun g =>
    (planeWave_continuous g).continuousOn.integrableOn_compact (cell_compact lat o)
  have := quad_integral b φ u hi
  apply_fun ((↑) : ℝ → ℂ) using ofReal_injective
  rw [← this]
  simp only [integral_cell_wave hb, sub_eq_zero, hφ.eq_iff]
  push_cast
  rw [Finset.mul_sum]
  refine Finset.sum_congr rfl fun r _ => ?_
  rw [Finset.sum_eq_single r (fun c _ hc => by rw [if_neg (Ne.symm hc), mul_zero]) (by simp), if_pos rfl]
  rw [show star (u r) = (starRingEnd ℂ) (u r) from rfl, ← normSq_eq_conj_mul_self, normSq_eq_norm_sq]
  push_cast
  ring

/-- The union of the islands. -/
def covered (islands : List Island) : Set R2 := {p | ∃ s ∈ islands, p ∈ s.region}

theorem proper_region {s : Island} (hs : s.shape.Proper) :
    MeasurableSet s.region ∧ ∀ g, IntegrableOn (planeWave g) s.region := by
  obtain ⟨sh, eps⟩ := s
  cases sh with
  | rectangle a b c d =>
    exact ⟨(region_rect eps hs.1 hs.2 0).1, fun g => (region_rect eps hs.1 hs.2 g).2.1⟩
  | disc a b r =>
    exact ⟨(region_disc (a := a) (b := b) eps hs 0).1, fun g => (region_disc (a := a) (b := b) eps hs g).2.1⟩
  | ellipse => exact absurd hs (by simp [Shape.Proper])

/-- Integrals over islands that do not overlap add up to the integral over what they cover. -/
theorem integral_covered {islands : List Island} (hp : ∀ s ∈ islands, s.shape.Proper)
    (ha : islands.Pairwise fun s t => volume (s.region ∩ t.region) = 0) {h : R2 → ℝ} {K : Set R2}
    (hK : IntegrableOn h K) (hsub : ∀ s ∈ islands, s.region ⊆ K) :
    MeasurableSet (covered islands) ∧
      (islands.map fun s => ∫ p in s.region, h p).sum = ∫ p in covered islands, h p := by
  induction islands with
  | nil => simp [covered]
  | cons s islands ih =>
    rw [List.pairwise_cons] at ha
    obtain ⟨m, e⟩ := ih (fun t ht => hp t (by simp [ht])) ha.2 fun t ht => hsub t (by simp [ht])
    have hm := (proper_region (hp s (by simp))).1
    have hc : covered (s :: islands) = s.region ∪ covered islands := by
      ext p
      simp [covered, Set.mem_union]
    have hd : AEDisjoint volume s.region (covered islands) := by
      have : s.region ∩ covered islands = ⋃ t ∈ {t | t ∈ islands}, s.region ∩ t.region := by
        ext p
        simp [covered]
      rw [AEDisjoint, this, measure_biUnion_null_iff islands.finite_toSet.countable]
      exact fun t ht => ha.1 t ht
    have hs2 : covered islands ⊆ K := by
      rintro p ⟨t, ht, hpt⟩
      exact hsub t (by simp [ht]) hpt
    rw [hc]
    refine ⟨hm.union m, ?_⟩
    rw [setIntegral_union₀ hd m.nullMeasurableSet (hK.mono_set (hsub s (by simp))) (hK.mono_set hs2), List.map_cons,
      List.sum_cons, e]

theorem laid_weights {lat : R2 × R2} {islands : List Island} (hl : Laid lat islands) {h : R2 → ℝ}
    (hc : Continuous h) (h0 : ∀ p, 0 ≤ h p) :
    ∃ o, (islands.map fun s => ∫ p in s.region, h p).sum ≤ ∫ p in Cell lat o, h p := by
  obtain ⟨o, ho⟩ := hl.cell
  have hK : IntegrableOn h (Cell lat o) := hc.continuousOn.integrableOn_compact (cell_compact lat o)
  refine ⟨o, ?_⟩
  rw [(integral_covered hl.proper hl.apart hK ho).2]
  refine setIntegral_mono_set hK (ae_of_all _ h0) (Filter.Eventually.of_forall ?_)
  rintro p ⟨s, hs, hp⟩
  exact ho s hs hp

/-- The quadratic form of the coefficients of the pattern: the mean of the permittivity weighted by the intensity of a
superposition of plane waves. -/
theorem pattern_quad {islands : List Island} (hp : ∀ s ∈ islands, s.shape.Proper) (host : ℂ) (b : R2 × R2) (sigma : ℝ)
    {φ : n → ℤ × ℤ} (hφ : Function.Injective φ) (u : n → ℂ) :
    ∑ r, ∑ c, star (u r) * u c * patternCoef islands host b sigma (φ r - φ c) =
      host * ((∑ i, ‖u i‖ ^ 2 : ℝ) : ℂ) +
        (islands.map fun s => (s.eps - host) * ((1 / sigma * ∫ p in s.region, ‖superpose b φ u p‖ ^ 2 : ℝ) : ℂ)).sum := by
  classical
  have key : ∀ mn, patternCoef islands host b sigma mn = (if mn = 0 then host else 0) +
      1 / sigma * (islands.map fun s => (s.eps - host) * ∫ p in s.region, planeWave (latticeVec b mn) p).sum := by
    intro mn
    rw [patternCoef, ← latticeVec_eq, (integral_islandSum host _ fun s hs =>
      ⟨(proper_region (hp s hs)).1, (proper_region (hp s hs)).2 _⟩).2]
    rfl
  simp only [key, mul_add, Finset.sum_add_distrib]
  congr 1
  · push_cast
    rw [Finset.mul_sum]
    refine Finset.sum_congr rfl fun r _ => ?_
    rw [Finset.sum_eq_single r (fun c _ hc => by
      rw [if_neg (by rw [sub_eq_zero]; exact fun e => hc (hφ e).symm), mul_zero]) (by simp), if_pos (sub_self _)]
    rw [show star (u r) = (starRingEnd ℂ) (u r) from rfl, ← normSq_eq_conj_mul_self, normSq_eq_norm_sq]
    push_cast
    ring
  · clear key
    induction islands with
    | nil => simp
    | cons s islands ih =>
      simp only [List.map_cons, List.sum_cons, mul_add, Finset.sum_add_distrib]
      rw [ih fun t ht => hp t (by simp [ht])]
      congr 1
      push_cast
      rw [← quad_integral b φ u (proper_region (hp s (by simp))).2, Finset.mul_sum, Finset.mul_sum]
      refine Finset.sum_congr rfl fun r _ => ?_
      rw [Finset.mul_sum, Finset.mul_sum]
      refine Finset.sum_congr rfl fun c _ => ?_
      ring

theorem weighted_range {w host : ℂ} {δ A : ℝ} (hh : δ ≤ (w * host).re) {l : List (ℂ × ℝ)}
    (hl : ∀ x ∈ l, δ ≤ (w * x.1).re ∧ 0 ≤ x.2) (hA : (l.map Prod.snd).sum ≤ A) :
    δ * A ≤ (w * (host * (A : ℂ) + (l.map fun x => (x.1 - host) * (x.2 : ℂ)).sum)).re := by
  have key : ∀ l : List (ℂ × ℝ), (∀ x ∈ l, δ ≤ (w * x.1).re ∧ 0 ≤ x.2) →
      (δ - (w * host).re) * (l.map Prod.snd).sum ≤ (w * (l.map fun x => (x.1 - host) * (x.2 : ℂ)).sum).re := by
    intro l
    induction l with
    | nil => simp
    | cons x l ih =>
      intro hl
      have h1 := ih fun y hy => hl y (by simp [hy])
      obtain ⟨h2, h3⟩ := hl x (by simp)
      have e : (w * ((x.1 - host) * (x.2 : ℂ))).re = ((w * x.1).re - (w * host).re) * x.2 := by
        rw [show w * ((x.1 - host) * (x.2 : ℂ)) = (w * x.1 - w * host) * (x.2 : ℂ) by ring, re_mul_ofReal, sub_re]
      simp only [List.map_cons, List.sum_cons, mul_add, add_re, e]
      have := mul_le_mul_of_nonneg_right h2 h3
      nlinarith
  have h1 := key l hl
  rw [mul_add, add_re, ← mul_assoc, re_mul_ofReal]
  have := mul_nonneg (sub_nonneg.2 hh) (sub_nonneg.2 hA)
  nlinarith

/-- The values of the quadratic form of the pattern lie in every half plane which contains the media. -/
theorem pattern_range {lat b : R2 × R2} (hb : reciproc lat.1 lat.2 = .ok b) {islands : List Island} (hl : Laid lat islands)
    {host w : ℂ} {δ : ℝ} (hh : δ ≤ (w * host).re) (hs : ∀ s ∈ islands, δ ≤ (w * s.eps).re)
    {φ : n → ℤ × ℤ} (hφ : Function.Injective φ) (u : n → ℂ) :
    δ * ∑ i, ‖u i‖ ^ 2 ≤ (w * ∑ r, ∑ c, star (u r) * u c *
      patternCoef islands host b (unitCellArea lat.1 lat.2) (φ r - φ c)).re := by
  set sigma := unitCellArea lat.1 lat.2 with hsig
  have hpos : 0 < sigma := by
    obtain ⟨hdet, -⟩ := reciproc_eq_ok.1 hb
    exact abs_pos.2 hdet
  rw [pattern_quad hl.proper host b sigma hφ u]
  have := weighted_range (A := ∑ i, ‖u i‖ ^ 2) hh
    (l := islands.map fun s => (s.eps, 1 / sigma * ∫ p in s.region, ‖superpose b φ u p‖ ^ 2)) (by
      intro x hx
      obtain ⟨s, hs', rfl⟩ := List.mem_map.1 hx
      refine ⟨hs s hs', mul_nonneg (by positivity) (integral_nonneg fun p => by positivity)⟩) (by
      obtain ⟨o, ho⟩ := laid_weights hl (h := fun p => ‖superpose b φ u p‖ ^ 2)
        ((superpose_continuous b φ u).norm.pow 2) fun p => by positivity
      rw [cell_parseval hb o hφ u] at ho
      rw [List.map_map]
      have e : (islands.map (Prod.snd ∘ fun s => (s.eps, 1 / sigma * ∫ p in s.region, ‖superpose b φ u p‖ ^ 2))).sum =
          1 / sigma * (islands.map fun s => ∫ p in s.region, ‖superpose b φ u p‖ ^ 2).sum := by
        rw [← List.sum_map_mul_left]
        rfl
      rw [e, one_div, inv_mul_le_iff₀ hpos]
      exact ho)
  rw [List.map_map] at this
  exact this

/-- A matrix close to another has a close quadratic form. -/
theorem quad_near {C : Matrix n n ℂ} {f : n → n → ℂ} {tol : ℝ} (h : ∀ r c, ‖C r c - f r c‖ ≤ tol) (u : n → ℂ) :
    ‖star u ⬝ᵥ C *ᵥ u - ∑ r, ∑ c, star (u r) * u c * f r c‖ ≤ Fintype.card n * tol * ∑ i, ‖u i‖ ^ 2 := by
  have e : star u ⬝ᵥ C *ᵥ u - ∑ r, ∑ c, star (u r) * u c * f r c =
      ∑ r, ∑ c, star (u r) * u c * (C r c - f r c) := by
    simp only [dotProduct, mulVec, Pi.star_apply, Finset.mul_sum, ← Finset.sum_sub_distrib]
    exact Finset.sum_congr rfl fun r _ => Finset.sum_congr rfl fun c _ => by ring
  rw [e]
  rcases isEmpty_or_nonempty n with hn | hn
  · simp
  have htol : 0 ≤ tol := (norm_nonneg _).trans (h hn.some hn.some)
  calc ‖∑ r, ∑ c, star (u r) * u c * (C r c - f r c)‖
      ≤ ∑ r, ∑ c, ‖u r‖ * ‖u c‖ * tol := by
        refine (norm_sum_le _ _).trans (Finset.sum_le_sum fun r _ => (norm_sum_le _ _).trans (Finset.sum_le_sum fun c _ => ?_))
        rw [norm_mul, norm_mul, norm_star]
        exact mul_le_mul_of_nonneg_left (h r c) (by positivity)
    _ = tol * (∑ r, ‖u r‖) ^ 2 := by
        rw [sq, Finset.sum_mul_sum, Finset.mul_sum]
        refine Finset.sum_congr rfl fun r _ => ?_
        rw [Finset.mul_sum]
        exact Finset.sum_congr rfl fun c _ => by ring
    _ ≤ tol * (Fintype.card n * ∑ r, ‖u r‖ ^ 2) :=
        mul_le_mul_of_nonneg_left (by simpa using sq_sum_le_card_mul_sum_sq (s := Finset.univ) (f := fun r => ‖u r‖)) htol
    _ = _ := by ring

end Khepri
