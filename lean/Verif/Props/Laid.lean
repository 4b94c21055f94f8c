import Verif.Lemmas.Laid
import Verif.Lemmas.ThinBar
import Verif.Props.Islands
import Verif.Props.Absorb
import Mathlib.Analysis.Real.Pi.Bounds

/-!
# C97: layers of islands inherit the losses of their media
-/

namespace Khepri

open Complex MeasureTheory Matrix

variable {jv1 : ℝ → ℝ} {tag : ℕ} {lat : R2 × R2} {islands : List Island} {host : ℂ}

/-- Orders along one lattice vector only, or as many along both: where the matrix of a layer of islands is made of the
Fourier coefficients of the pattern (C41). -/
def EvenOrders (pw : ℕ × ℕ) : Prop := pw.1 = 1 ∨ pw.2 = 1 ∨ pw.1 = pw.2

/-- The matrix of a layer of islands, in terms of the pattern. -/
theorem analytical_pattern (hJ : BesselOne jv1) {pw : ℕ × ℕ} {e : Expansion (pw.1 * pw.2)} (hpw : EvenOrders pw)
    {C : Matrix (Fin (pw.1 * pw.2)) (Fin (pw.1 * pw.2)) ℂ} (he : Expansion.make tag pw lat = .ok e)
    (hp : Periods e.reciprocal) (hs : ∀ s ∈ islands, s.shape.Proper) (h : analyticalC jv1 e islands host = .ok C) :
    ∃ φ : Fin (pw.1 * pw.2) → ℤ × ℤ, Function.Injective φ ∧
      ∀ r c, ‖C r c - patternCoef islands host e.reciprocal e.sigma (φ r - φ c)‖ ≤ patternTol islands host e.sigma := by
  obtain ⟨P, Q⟩ := pw
  simp only [EvenOrders] at hpw
  rcases hpw with rfl | rfl | rfl
  · refine ⟨fun r => (0, r), fun r c hrc => ?_, fun r c => ?_⟩
    · simpa [Fin.ext_iff] using hrc
    · have := C41_second_partial hJ he hp hs h r c
      simpa using this
  · refine ⟨fun r => (r, 0), fun r c hrc => ?_, fun r c => ?_⟩
    · simpa [Fin.ext_iff] using hrc
    · have := C41_first_partial hJ he hp hs h r c
      simpa using this
  · refine ⟨fun r => (((r / P : ℕ) : ℤ), ((r % P : ℕ) : ℤ)), fun r c hrc => ?_, fun r c => ?_⟩
    · simp only [Prod.mk.injEq, Nat.cast_inj] at hrc
      rw [Fin.ext_iff, ← Nat.div_add_mod r P, ← Nat.div_add_mod c P, hrc.1, hrc.2]
    · exact C41_transposed hJ he hp hs h r c

/-- **C97.** The values of the quadratic form of the permittivity matrix of a layer of islands lie, up to the accuracy
of the transforms of rectangles, in every half plane which contains the permittivities of the host and of the
islands. -/
theorem C97_range_partial (hJ : BesselOne jv1) {pw : ℕ × ℕ} {e : Expansion (pw.1 * pw.2)} (hpw : EvenOrders pw)
    {C : Matrix (Fin (pw.1 * pw.2)) (Fin (pw.1 * pw.2)) ℂ} (he : Expansion.make tag pw lat = .ok e)
    (hp : Periods e.reciprocal) (hl : Laid lat islands) (h : analyticalC jv1 e islands host = .ok C)
    {w : ℂ} (hw : ‖w‖ = 1) {δ : ℝ} (hh : δ ≤ (w * host).re) (hs : ∀ s ∈ islands, δ ≤ (w * s.eps).re)
    (u : Fin (pw.1 * pw.2) → ℂ) :
    (δ - pw.1 * pw.2 * patternTol islands host e.sigma) * ∑ i, ‖u i‖ ^ 2 ≤ (w * (star u ⬝ᵥ C *ᵥ u)).re := by
  obtain ⟨φ, hφ, hnear⟩ := analytical_pattern hJ hpw he hp hl.proper h
  obtain ⟨-, -, b, hb, rfl⟩ := make_eq_ok.1 he
  have h1 := pattern_range hb hl hh hs hφ u
  have h2 := quad_near hnear u
  simp only [Fintype.card_fin, Nat.cast_mul] at h2 h1 ⊢
  set q := star u ⬝ᵥ C *ᵥ u
  set q0 := ∑ r, ∑ c, star (u r) * u c * patternCoef islands host b (unitCellArea lat.1 lat.2) (φ r - φ c)
  have h3 : (w * q).re = (w * q0).re + (w * (q - q0)).re := by rw [← add_re]; congr 1; ring
  have h4 : -‖q - q0‖ ≤ (w * (q - q0)).re := by
    have := abs_re_le_norm (w * (q - q0))
    rw [norm_mul, hw, one_mul] at this
    exact (abs_le.1 this).1
  rw [h3]
  linarith

/-- **C97.** Media without gain make a layer without gain: all of them absorb at least `δ`, which exceeds the accuracy
of the transforms of rectangles (that accuracy is 0 for discs, so that nothing is asked of `δ`). -/
theorem C97_absorbing_partial (hJ : BesselOne jv1) {pw : ℕ × ℕ} {e : Expansion (pw.1 * pw.2)} (hpw : EvenOrders pw)
    (he : Expansion.make tag pw lat = .ok e) (hp : Periods e.reciprocal) (hl : Laid lat islands) {δ : ℝ}
    (hh : host.im ≤ -δ) (hs : ∀ s ∈ islands, s.eps.im ≤ -δ)
    (hδ : pw.1 * pw.2 * patternTol islands host e.sigma ≤ δ) : (Form.analytical islands host).absorbing jv1 e := by
  intro C hC u
  have := C97_range_partial hJ hpw he hp hl hC (w := I) norm_I (δ := δ) (by simpa using le_neg.1 hh)
    (fun s hs' => by simpa using le_neg.1 (hs s hs')) u
  rw [I_mul_re] at this
  have h0 : 0 ≤ ∑ i, ‖u i‖ ^ 2 := Finset.sum_nonneg fun i _ => by positivity
  nlinarith [mul_nonneg (sub_nonneg.2 hδ) h0]

/-- **C97.** Lossy media make a layer that absorbs everywhere. -/
theorem C97_strictly_absorbing_partial (hJ : BesselOne jv1) {pw : ℕ × ℕ} {e : Expansion (pw.1 * pw.2)} (hpw : EvenOrders pw)
    (he : Expansion.make tag pw lat = .ok e) (hp : Periods e.reciprocal) (hne : islands ≠ []) (hl : Laid lat islands)
    {δ : ℝ} (hh : host.im ≤ -δ) (hs : ∀ s ∈ islands, s.eps.im ≤ -δ)
    (hδ : pw.1 * pw.2 * patternTol islands host e.sigma < δ) :
    (Form.analytical islands host).strictlyAbsorbing jv1 e := by
  obtain ⟨C, hC⟩ := C41_exists (host := host) hJ he hp hne hl.proper
  refine ⟨C, hC, fun u hu => ?_⟩
  have := C97_range_partial hJ hpw he hp hl hC (w := I) norm_I (δ := δ) (by simpa using le_neg.1 hh)
    (fun s hs' => by simpa using le_neg.1 (hs s hs')) u
  rw [I_mul_re] at this
  have h0 : 0 < ∑ i, ‖u i‖ ^ 2 := by
    obtain ⟨i, hi⟩ := Function.ne_iff.1 hu
    exact Finset.sum_pos' (fun i _ => by positivity) ⟨i, Finset.mem_univ i, by have := norm_pos_iff.2 hi; positivity⟩
  nlinarith [mul_pos (sub_pos.2 hδ) h0]

/-- **C97.** Media of positive permittivity (real part) make a matrix that can be inverted. -/
theorem C97_invertible_partial (hJ : BesselOne jv1) {pw : ℕ × ℕ} {e : Expansion (pw.1 * pw.2)} (hpw : EvenOrders pw)
    (he : Expansion.make tag pw lat = .ok e) (hp : Periods e.reciprocal) (hne : islands ≠ []) (hl : Laid lat islands)
    {δ : ℝ} (hh : δ ≤ host.re) (hs : ∀ s ∈ islands, δ ≤ s.eps.re)
    (hδ : pw.1 * pw.2 * patternTol islands host e.sigma < δ) :
    ∃ C IC, analyticalC jv1 e islands host = .ok C ∧ npInv C = .ok IC := by
  obtain ⟨C, hC⟩ := C41_exists (host := host) hJ he hp hne hl.proper
  have hdet : C.det ≠ 0 := by
    intro hdet
    obtain ⟨u, hu, hCu⟩ := Matrix.exists_mulVec_eq_zero_iff.2 hdet
    have := C97_range_partial hJ hpw he hp hl hC (w := 1) norm_one (δ := δ) (by simpa using hh)
      (fun s hs' => by simpa using hs s hs') u
    rw [hCu, dotProduct_zero, mul_zero, zero_re] at this
    have h0 : 0 < ∑ i, ‖u i‖ ^ 2 := by
      obtain ⟨i, hi⟩ := Function.ne_iff.1 hu
      exact Finset.sum_pos' (fun i _ => by positivity) ⟨i, Finset.mem_univ i, by have := norm_pos_iff.2 hi; positivity⟩
    nlinarith [mul_pos (sub_pos.2 hδ) h0]
  exact ⟨C, C⁻¹, hC, by simp [npInv, hdet]⟩

/-- A layer of islands laid out in a cell, of media which all absorb at least as much as the accuracy of the transforms
of rectangles. -/
def Form.lossyIslands {N : ℕ} (lat : R2 × R2) (e : Expansion N) : Form → Prop
  | .analytical islands host => Laid lat islands ∧ ∃ δ : ℝ, N * patternTol islands host e.sigma ≤ δ ∧ host.im ≤ -δ ∧
      ∀ s ∈ islands, s.eps.im ≤ -δ
  | _ => False

/-- **C97.** A device of layers of islands of media without gain does not amplify: `R + T ≤ 1`. -/
theorem C97_energy_partial {lib : NumLib} (hJ : BesselOne lib.jv1) {pw : ℕ × ℕ} (hpw : EvenOrders pw)
    {order : List String} {c c1 c2 c3 : Crystal (pw.1 * pw.2)} {stack : List String} {m : Bool ⊕ List Bool}
    {Ls : List (Layer (pw.1 * pw.2))} {er et : ℝ} {wl : ℝ} {te tm : ℂ} {theta phi : ℝ} {kpo : Option (ℂ × ℂ)}
    (he : EigContract (lib.eig (pw.1 * pw.2))) (hm : Expansion.make tag pw lat = .ok c.expansion)
    (hp : Periods c.expansion.reciprocal) (hc : FreshDevice c stack m Ls er et)
    (hL : ∀ l ∈ Ls, 0 ≤ l.depth ∧ l.form.lossyIslands lat c.expansion)
    (h1 : c.setDevice stack m = .ok c1) (h2 : c1.setSource wl te tm theta phi kpo = .ok c2)
    (ho : SetOrder ("Sref" :: (stack ++ ["Strans"])) order) (h3 : c2.solve lib order = .ok c3)
    (hwl : 0 < wl) {src : Source} (hs : c2.source = some src) {kp : ℝ × ℝ} (hkp : src.kp = (↑kp.1, ↑kp.2))
    (hcut : (kp.1 = 0 ∧ kp.2 = 0) ∨ (1 / 10 ^ 8) ^ 2 ≤ kp.1 ^ 2 + kp.2 ^ 2)
    {f : Crystal.Fluxes (pw.1 * pw.2)} (hf : c3.poyntingFluxEnd = .ok f) : f.R + f.T ≤ 1 := by
  refine C15_energy_absorbed he (.make hm) hc (fun l hl => ⟨(hL l hl).1, ?_⟩) h1 h2 ho h3 hwl hs hkp hcut hf
  have := (hL l hl).2
  revert this
  cases l.form with
  | analytical islands host =>
    rintro ⟨hlaid, δ, hδ, hh, hi⟩
    exact C97_absorbing_partial hJ hpw hm hp hlaid hh hi (by exact_mod_cast hδ)
  | _ => exact fun h => absurd h (by simp [Form.lossyIslands])

/-- **C97** (overlap). That the islands do not overlap is needed: where two islands overlap, what they add to the host
is counted twice, and two absorbing discs drawn one over the other in a more absorbing host make a layer with gain. -/
theorem C97_overlap (jv1 : ℝ → ℝ) : ∃ C, analyticalC jv1 exampleExpansion
      [⟨.disc (1 / 2) (1 / 2) (1 / 2), 1 - I⟩, ⟨.disc (1 / 2) (1 / 2) (1 / 2), 1 - I⟩] (1 - 3 * I) = .ok C ∧
    ∀ u : Fin 1 → ℂ, u ≠ 0 → 0 < (star u ⬝ᵥ C *ᵥ u).im := by
  have ht : transformShape jv1 (.disc (1 / 2) (1 / 2) (1 / 2)) (latticeVec exampleExpansion.reciprocal (0, 0))
      exampleExpansion.sigma = .ok ((Real.pi * (1 / 2) ^ 2 / 1 : ℝ) : ℂ) := by
    have := C59_zero (jv1 := jv1) (1 / 2) (1 / 2) (1 / 2) 1
    simpa [transformShape, latticeVec, exampleExpansion] using this
  have hpos : orderAt (triple exampleExpansion.pw.1, triple exampleExpansion.pw.2)
      (tablePos exampleExpansion.pw ((0 : Fin 1) : ℕ) ((0 : Fin 1) : ℕ)) = (0, 0) := rfl
  refine ⟨_, analyticalC_ok rfl rfl (by simp) ?_, ?_⟩
  · intro s hs k hk
    have hk0 : k = 0 := by
      have : triple exampleExpansion.pw.1 * triple exampleExpansion.pw.2 = 1 := rfl
      omega
    subst hk0
    simp only [List.mem_cons, List.not_mem_nil, or_false, or_self] at hs
    subst hs
    exact ⟨_, ht⟩
  · intro u hu
    have hu0 : u 0 ≠ 0 := fun h => hu (by ext i; fin_cases i; exact h)
    simp only [dotProduct, mulVec, Finset.univ_unique, Fin.default_eq_zero, Finset.sum_singleton, Matrix.of_apply, hpos,
      islandCoef, if_true, List.map_cons, List.map_nil, List.sum_cons, List.sum_nil, shapeValue_of ht, Pi.star_apply]
    have e : star (u 0) * ((1 - 3 * I + ((1 - I - (1 - 3 * I)) * ((Real.pi * (1 / 2) ^ 2 / 1 : ℝ) : ℂ) +
        ((1 - I - (1 - 3 * I)) * ((Real.pi * (1 / 2) ^ 2 / 1 : ℝ) : ℂ) + 0))) * u 0) =
        ((‖u 0‖ ^ 2 : ℝ) : ℂ) * (1 + ((Real.pi - 3 : ℝ) : ℂ) * I) := by
      have : ((‖u 0‖ ^ 2 : ℝ) : ℂ) = star (u 0) * u 0 := by
        rw [show star (u 0) = (starRingEnd ℂ) (u 0) from rfl, ← normSq_eq_conj_mul_self, normSq_eq_norm_sq]
      rw [this]
      push_cast
      ring
    rw [e, im_ofReal_mul]
    have h1 : (1 + ((Real.pi - 3 : ℝ) : ℂ) * I).im = Real.pi - 3 := by simp
    rw [h1]
    have := norm_pos_iff.2 hu0
    have := Real.pi_gt_three
    nlinarith [pow_pos (norm_pos_iff.2 hu0) 2]

theorem three_quad {n : Type} [Fintype n] [DecidableEq n] (C : Matrix n n ℂ) (i j k : n) :
    star (Pi.single i (-2) + Pi.single j 1 + Pi.single k 1 : n → ℂ) ⬝ᵥ
        C *ᵥ (Pi.single i (-2) + Pi.single j 1 + Pi.single k 1) =
      4 * C i i + C j j + C k k - 2 * (C i j + C j i) - 2 * (C i k + C k i) + (C j k + C k j) := by
  simp only [star_add, ← Pi.single_star, mulVec_add, add_dotProduct, dotProduct_add, single_dotProduct,
    mulVec_single, star_neg, star_one, star_ofNat]
  simp
  ring

theorem bar_orders : ([(10, 10), (5, 5), (1, 1), (10, 5), (5, 10), (10, 1), (1, 10), (5, 1), (1, 5)] : List (ℕ × ℕ)).map
    (fun rc => orderAt (triple 5, triple 3) (tablePos (5, 3) rc.1 rc.2)) =
    [(0, 0), (0, 0), (0, 0), (1, 0), (-1, 0), (-7, 0), (7, 0), (7, -1), (-7, 1)] := by
  decide

/-- **C97** (the claim fails). With 5 x 3 orders the entries of the matrix are the Fourier coefficients of other orders
than those it pairs (C41), and a thin lossy bar in a lossless host makes a layer with gain. -/
theorem C97_counterexample (jv1 : ℝ → ℝ) : ∃ (e : Expansion (5 * 3)) (C : Matrix (Fin (5 * 3)) (Fin (5 * 3)) ℂ)
    (u : Fin (5 * 3) → ℂ), Expansion.make 0 (5, 3) ((1, 0), (0, 1)) = .ok e ∧ Periods e.reciprocal ∧
    Laid ((1, 0), (0, 1)) [thinBar] ∧ thinBar.eps = 1 - I ∧ analyticalC jv1 e [thinBar] 1 = .ok C ∧
    0 < (star u ⬝ᵥ C *ᵥ u).im := by
  obtain ⟨e, he, hr, hsig, hpw⟩ := unit_expansion 0 (pw := (5, 3)) rfl rfl
  have hC := analyticalC_ok (jv1 := jv1) (e := e) (islands := [thinBar]) (host := 1) (by simp [hpw]) (by simp [hpw]) (by simp)
    fun s hs k _ => by
      simp only [List.mem_singleton] at hs
      subst hs
      exact ⟨_, rfl⟩
  rw [hpw, hr, hsig] at hC
  refine ⟨e, _, Pi.single 10 (-2) + Pi.single 5 1 + Pi.single 1 1, he, hr ▸ unit_periods, ?_, rfl, hC, ?_⟩
  · refine ⟨by simp [thinBar, Shape.Proper], ⟨(-(1 / 2), 0), fun s hs p hp => ?_⟩, by simp⟩
    simp only [List.mem_singleton] at hs
    subst hs
    obtain ⟨⟨h1, h2⟩, h3, h4⟩ := hp
    refine ⟨p.1 + 1 / 2, ⟨by linarith, by linarith⟩, p.2, ⟨h3, h4⟩, ?_⟩
    ext <;> simp
  · have hent : ∀ mn, islandCoef jv1 ((2 * Real.pi, 0), (0, 2 * Real.pi)) 1 [thinBar] 1 mn =
        (if mn = (0, 0) then 1 else 0) - I * barCoef mn := by
      intro mn
      have : shapeValue jv1 thinBar.shape (latticeVec ((2 * Real.pi, 0), (0, 2 * Real.pi)) mn) 1 = barCoef mn :=
        shapeValue_of rfl
      simp only [islandCoef, List.map_cons, List.map_nil, List.sum_cons, List.sum_nil, this]
      simp only [thinBar]
      ring
    have key : ∀ (r c : Fin (5 * 3)) (mn : ℤ × ℤ),
        orderAt (triple (5, 3).1, triple (5, 3).2) (tablePos (5, 3) r c) = mn →
        (Matrix.of fun r c : Fin (5 * 3) => islandCoef jv1 ((2 * Real.pi, 0), (0, 2 * Real.pi)) 1 [thinBar] 1
          (orderAt (triple (5, 3).1, triple (5, 3).2) (tablePos (5, 3) r c))) r c =
        (if mn = (0, 0) then 1 else 0) - I * barCoef mn := fun r c mn h => by rw [Matrix.of_apply, h, hent]
    generalize (Matrix.of fun r c : Fin (5 * 3) => islandCoef jv1 ((2 * Real.pi, 0), (0, 2 * Real.pi)) 1 [thinBar] 1
          (orderAt (triple (5, 3).1, triple (5, 3).2) (tablePos (5, 3) r c))) = C at key ⊢
    have ord := bar_orders
    simp only [List.map_cons, List.map_nil, List.cons.injEq, and_true] at ord
    obtain ⟨o1, o2, o3, o4, o5, o6, o7, o8, o9⟩ := ord
    have c1 := key 10 10 (0, 0) o1
    have c2 := key 5 5 (0, 0) o2
    have c3 := key 1 1 (0, 0) o3
    have c4 := key 10 5 (1, 0) o4
    have c5 := key 5 10 (-1, 0) o5
    have c6 := key 10 1 (-7, 0) o6
    have c7 := key 1 10 (7, 0) o7
    have c8 := key 5 1 (7, -1) o8
    have c9 := key 1 5 (-7, 1) o9
    rw [bar_across (by decide)] at c8 c9
    simp only [Prod.mk.injEq, and_self, and_true, if_true, neg_eq_zero, OfNat.ofNat_ne_zero, one_ne_zero, if_false,
      zero_sub, mul_zero, sub_zero] at c1 c2 c3 c4 c5 c6 c7 c8 c9
    have q := three_quad C 10 5 1
    rw [q, c1, c2, c3, c4, c5, c6, c7, c8, c9, bar_zero]
    have b1 := bar_low (m := 1) (by norm_num)
    have b2 := bar_low (m := 7) (by norm_num)
    have b3 := bar_neg 1
    have b4 := bar_neg 7
    simp only [sub_im, add_im, mul_im, neg_im, I_re, I_im, one_im, ofReal_re, ofReal_im]
    norm_num at b1 b2 b3 b4 ⊢
    linarith

section Examples

/-- A disc and a bar in the unit cell. -/
theorem laid_example (x y : ℂ) :
    Laid ((1, 0), (0, 1)) [⟨.disc (1 / 4) (1 / 2) (1 / 5), x⟩, ⟨.rectangle (1 / 2) 0 (3 / 4) 1, y⟩] where
  proper := by simp [Shape.Proper]; norm_num
  cell := by
    refine ⟨0, fun s hs p hp => ?_⟩
    simp only [List.mem_cons, List.not_mem_nil, or_false] at hs
    rcases hs with rfl | rfl
    · obtain ⟨-, h⟩ := hp
      refine ⟨p.1, ⟨?_, ?_⟩, p.2, ⟨?_, ?_⟩, by simp⟩ <;> nlinarith [sq_nonneg (p.1 - 1 / 4), sq_nonneg (p.2 - 1 / 2)]
    · obtain ⟨⟨h1, h2⟩, h3, h4⟩ := hp
      exact ⟨p.1, ⟨by linarith, by linarith⟩, p.2, ⟨h3, h4⟩, by simp⟩
  apart := by
    refine List.pairwise_pair.2 ?_
    convert measure_empty (μ := volume)
    ext p
    simp only [Set.mem_inter_iff, Set.mem_empty_iff_false, iff_false, not_and]
    rintro ⟨-, h⟩ ⟨⟨h1, -⟩, -⟩
    nlinarith [sq_nonneg (p.2 - 1 / 2)]

/-- Non-vacuity of C97: the disc and the bar, of two lossy media in a lossy host, with 3 x 3 orders. -/
example : ∃ (jv1 : ℝ → ℝ) (e : Expansion (3 * 3)), BesselOne jv1 ∧
    (Form.analytical [⟨.disc (1 / 4) (1 / 2) (1 / 5), 4 - I⟩, ⟨.rectangle (1 / 2) 0 (3 / 4) 1, -9 - 2 * I⟩]
      (2 - I)).strictlyAbsorbing jv1 e := by
  obtain ⟨e, he, hr, hsig, -⟩ := unit_expansion 0 (pw := (3, 3)) rfl rfl
  refine ⟨_, e, fun _ => rfl, C97_strictly_absorbing_partial (δ := 1) (fun _ => rfl) (Or.inr (Or.inr rfl)) he (hr ▸ unit_periods)
    (by simp) (laid_example _ _) (by simp) (by simp) ?_⟩
  have hn : ‖(-9 - 2 * I - (2 - I) : ℂ)‖ ≤ 12 := by
    have e1 : (-9 - 2 * I - (2 - I) : ℂ) = -11 + -I := by ring
    rw [e1]
    refine (norm_add_le _ _).trans ?_
    rw [norm_neg, norm_neg, norm_I]; norm_num
  simp only [patternTol, hsig, List.map_cons, List.map_nil, List.sum_cons, List.sum_nil, Shape.rectArea]
  norm_num
  linarith

/-- The disc and the bar in a layer between glass and vacuum. -/
noncomputable def laidLayer : Layer 1 :=
  { expansion := exampleExpansion
    form := .analytical [⟨.disc (1 / 4) (1 / 2) (1 / 5), 4 - I⟩, ⟨.rectangle (1 / 2) 0 (3 / 4) 1, -9 - 2 * I⟩] (2 - I)
    depth := 1 / 2 }

noncomputable def laidCrystal : Crystal 1 :=
  { expansion := exampleExpansion
    epsi := ((9 / 4 : ℝ) : ℂ)
    epse := ((1 : ℝ) : ℂ)
    layers := fun x => if x = "a" then some (.plain laidLayer) else none }

theorem laid_fresh (b : Bool) :
    FreshDevice laidCrystal ["a"] (.inl b) [laidLayer] ((9 / 4 : ℝ) : ℂ) ((1 : ℝ) : ℂ) where
  void := rfl
  epsi := rfl
  epse := rfl
  noRef := by simp [laidCrystal]
  noTrans := by simp [laidCrystal]
  layers := .cons ⟨by simp [laidCrystal], trivial, rfl⟩ .nil
  mask := by simp

/-- With a Bessel function the device is solved at oblique incidence, and C97 bounds its powers. -/
example (b : Bool) : ∃ (lib : NumLib) (c1 c2 c3 : Crystal 1) (f : Crystal.Fluxes 1), BesselOne lib.jv1 ∧
    laidCrystal.setDevice ["a"] (.inl b) = .ok c1 ∧
    c1.setSource 1 1 0 0 0 (some ((absorbKp.1 : ℂ), (absorbKp.2 : ℂ))) = .ok c2 ∧
    c2.solve lib ["Sref", "a", "Strans"] = .ok c3 ∧ c3.poyntingFluxEnd = .ok f ∧ f.R + f.T ≤ 1 := by
  obtain ⟨jv1, hJ⟩ : ∃ jv1, BesselOne jv1 := ⟨_, fun _ => rfl⟩
  have hfr := laid_fresh b
  obtain ⟨c1, h1, hd, hexp, -, hi, hie⟩ := Crystal.setDevice_standard (m := .inl b) hfr.void hfr.noRef
    hfr.noTrans hfr.layers (by simp [Crystal.maskList])
  obtain ⟨c2, src, h2, hs, hk⟩ : ∃ c2 src, c1.setSource 1 1 0 0 0 (some ((absorbKp.1 : ℂ), (absorbKp.2 : ℂ))) = .ok c2 ∧
      c2.source = some src ∧ src.kp = ((absorbKp.1 : ℂ), (absorbKp.2 : ℂ)) :=
    ⟨_, _, Crystal.setSource_eq_ok.2 ⟨one_ne_zero, _, rfl, rfl⟩, rfl, rfl⟩
  have ho : SetOrder ("Sref" :: (["a"] ++ ["Strans"])) ["Sref", "a", "Strans"] := ⟨by decide, fun x => by simp⟩
  have hper : Periods exampleExpansion.reciprocal := by
    have : exampleExpansion.reciprocal = ((2 * Real.pi, 0), (0, 2 * Real.pi)) := by simp [exampleExpansion]
    rw [this]; exact unit_periods
  have hn : ‖(-9 - 2 * I - (2 - I) : ℂ)‖ ≤ 12 := by
    have e1 : (-9 - 2 * I - (2 - I) : ℂ) = -11 + -I := by ring
    rw [e1]
    refine (norm_add_le _ _).trans ?_
    rw [norm_neg, norm_neg, norm_I]; norm_num
  have htol : patternTol [⟨.disc (1 / 4) (1 / 2) (1 / 5), 4 - I⟩, ⟨.rectangle (1 / 2) 0 (3 / 4) 1, -9 - 2 * I⟩] (2 - I)
      exampleExpansion.sigma < 1 := by
    simp only [patternTol, exampleExpansion, List.map_cons, List.map_nil, List.sum_cons, List.sum_nil, Shape.rectArea]
    norm_num
    linarith
  have hst : laidLayer.form.strictlyAbsorbing jv1 exampleExpansion :=
    C97_strictly_absorbing_partial (pw := (1, 1)) (δ := 1) hJ (Or.inl rfl) exampleExpansion_make hper (by simp)
      (laid_example _ _) (by simp) (by simp) (by simpa using htol)
  have h0 : (2 * Real.pi * (1 / 2) : ℝ) / (2 * Real.pi / 1) = 1 / 2 := by
    have := Real.pi_pos
    field_simp
  obtain ⟨c3, h3⟩ := C94_device (lib := { exampleLib with jv1 := jv1 }) (exampleLib_contract 1) exampleExpansion_built
    hfr h1 h2 ho one_pos (by norm_num) one_pos hs hk (absorb_grazing (by norm_num)) (absorb_grazing (by norm_num))
    (absorb_grazing (by norm_num)) (by
      intro l hl
      rw [List.mem_singleton] at hl
      subst hl
      exact ⟨by norm_num [laidLayer], hst, lib_diagonalised jv1 hst _ _⟩)
  obtain ⟨f, hf⟩ := C94_powers exampleExpansion_built hfr h1 h2 ho h3 one_pos hs hk
    (by simp only [absorbKp, h0]; norm_num) (by simp)
  refine ⟨_, c1, c2, c3, f, hJ, h1, h2, h3, hf, ?_⟩
  refine C97_energy_partial (pw := (1, 1)) (tag := 0) (lat := ((1, 0), (0, 1))) (lib := { exampleLib with jv1 := jv1 }) hJ
    (Or.inl rfl) (exampleLib_contract 1) exampleExpansion_make hper hfr ?_ h1 h2 ho h3 one_pos hs hk ?_ hf
  · intro l hl
    rw [List.mem_singleton] at hl
    subst hl
    refine ⟨by norm_num [laidLayer], laid_example _ _, 1, ?_, by simp, by simp⟩
    refine le_trans (le_of_eq ?_) htol.le
    exact (congrArg (· * _) Nat.cast_one).trans (one_mul _)
  · right
    simp only [absorbKp]
    nlinarith [Real.two_le_pi]

end Examples

end Khepri
