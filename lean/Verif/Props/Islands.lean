import Verif.Lemmas.Islands
import Verif.Props.Draw

/-!
# Properties C41, C42, C59: analytical Fourier transforms
-/

namespace Khepri

open Complex MeasureTheory

variable {jv1 : ℝ → ℝ} {tag : ℕ} {lat : R2 × R2} {islands : List Island} {host : ℂ}

/-! ### C42 -/

/-- **C42.** The transform of a rectangle of lower left corner `(a, b)` and upper right corner `(c, d)` is the
Fourier integral over it, divided by the area of the cell, to a relative accuracy of `10⁻¹⁸`. -/
theorem C42_rectangle (a b c d : ℝ) (g : R2) (sigma : ℝ) :
    ‖transformRectangle a b c d g sigma - 1 / sigma * ∫ x in a..c, ∫ y in b..d, planeWave g (x, y)‖ ≤
      |(c - a) * (d - b) / sigma| / 10 ^ 18 := rect_bound a b c d g sigma

/-- **C42.** It is exactly so when each phase across the rectangle is 0 or more than `1/100` (the expansion used
near 0 is then only used at 0). -/
theorem C42_exact {a b c d : ℝ} {g : R2} (sigma : ℝ) (h1 : g.1 * (c - a) = 0 ∨ 1 / 100 < |g.1 * (c - a)|)
    (h2 : g.2 * (d - b) = 0 ∨ 1 / 100 < |g.2 * (d - b)|) :
    transformRectangle a b c d g sigma = 1 / sigma * ∫ x in a..c, ∫ y in b..d, planeWave g (x, y) :=
  rect_exact sigma h1 h2

/-- **C42.** At `G = 0` it is the filling fraction. -/
theorem C42_zero (a b c d sigma : ℝ) : transformRectangle a b c d (0, 0) sigma = ((c - a) * (d - b) / sigma : ℝ) := by
  rw [C42_exact sigma (by simp) (by simp)]
  simp [planeWave]
  ring

/-- **C42.** Opposite wave vectors have conjugate transforms. -/
theorem C42_conj (a b c d : ℝ) (g : R2) (sigma : ℝ) :
    transformRectangle a b c d (-g.1, -g.2) sigma = starRingEnd ℂ (transformRectangle a b c d g sigma) :=
  transformRectangle_neg a b c d g sigma

/-- Non-vacuity of C42: the first order of a bar covering half of a unit cell. -/
example : transformRectangle 0 0 (1 / 2) 1 (2 * Real.pi, 0) 1 =
    1 / (1 : ℝ) * ∫ x in (0 : ℝ)..(1 / 2), ∫ y in (0 : ℝ)..1, planeWave (2 * Real.pi, 0) (x, y) := by
  refine C42_exact 1 (Or.inr ?_) (by simp)
  have := Real.two_le_pi
  rw [abs_of_pos] <;> norm_num <;> linarith

/-! ### C59 -/

/-- **C59.** With the Bessel function of order 1, the transform of a disc is the Fourier integral over it divided
by the area of the cell. -/
theorem C59_disc (hJ : BesselOne jv1) {a b r : ℝ} (hr : 0 < r) {g : R2} (hg : ClearOf g) (sigma : ℝ) :
    transformDisc jv1 a b r g sigma =
      .ok (1 / sigma * ∫ p in {p : R2 | (p.1 - a) ^ 2 + (p.2 - b) ^ 2 < r ^ 2}, planeWave g p) :=
  disc_transform hJ hr hg sigma

/-- **C59.** At `G = 0` it is the filling fraction. -/
theorem C59_zero (a b r : ℝ) (sigma : ℝ) :
    transformDisc jv1 a b r (0, 0) sigma = .ok ((Real.pi * r ^ 2 / sigma : ℝ) : ℂ) := by
  simp only [transformDisc, abs_zero]
  rw [if_pos (by constructor <;> positivity)]
  simp only [pure, Except.pure]

/-- Non-vacuity of C59. -/
example : ∃ jv1 : ℝ → ℝ, BesselOne jv1 ∧ ClearOf (2 * Real.pi, 0) :=
  ⟨_, fun _ => rfl, Or.inr (Or.inl (by
    have := Real.two_le_pi
    simp only
    rw [abs_of_pos] <;> norm_num <;> linarith))⟩

/-! ### C41 -/

/-- The accuracy of the rectangle transforms, summed over the islands. -/
noncomputable def patternTol (islands : List Island) (host : ℂ) (sigma : ℝ) : ℝ :=
  (islands.map fun s => ‖s.eps - host‖ * |s.shape.rectArea / sigma|).sum / 10 ^ 18

/-- **C41, gratings.** With orders along the first vector only, the matrix of an analytical layer has at row
`m`, column `m'` the Fourier coefficient of the pattern at order `m - m'`. -/
theorem C41_first_partial (hJ : BesselOne jv1) {P : ℕ} {e : Expansion (P * 1)}
    {C : Matrix (Fin (P * 1)) (Fin (P * 1)) ℂ} (he : Expansion.make tag (P, 1) lat = .ok e)
    (hp : Periods e.reciprocal) (hs : ∀ s ∈ islands, s.shape.Proper) (h : analyticalC jv1 e islands host = .ok C)
    (r c : Fin (P * 1)) :
    ‖C r c - patternCoef islands host e.reciprocal e.sigma ((r : ℤ) - c, 0)‖ ≤ patternTol islands host e.sigma := by
  obtain ⟨o1, -, b, -, rfl⟩ := make_eq_ok.1 he
  obtain ⟨-, -, -, rfl⟩ := analyticalC_eq_ok h ⟨by simp only at o1 ⊢; omega, by simp⟩
  simp only [Matrix.of_apply, table_first o1 r.2 c.2]
  have hd : diffAt P r c = ((r : ℤ) - c, 0) := by
    have hr : (r : ℕ) < P := by have := r.2; omega
    have hc : (c : ℕ) < P := by have := c.2; omega
    simp [diffAt, Nat.mod_eq_of_lt hr, Nat.mod_eq_of_lt hc, Nat.div_eq_of_lt hr, Nat.div_eq_of_lt hc]
  rw [hd]
  exact islandCoef_near hJ hp hs host _

/-- **C41, gratings.** The same along the second vector. -/
theorem C41_second_partial (hJ : BesselOne jv1) {Q : ℕ} {e : Expansion (1 * Q)}
    {C : Matrix (Fin (1 * Q)) (Fin (1 * Q)) ℂ} (he : Expansion.make tag (1, Q) lat = .ok e)
    (hp : Periods e.reciprocal) (hs : ∀ s ∈ islands, s.shape.Proper) (h : analyticalC jv1 e islands host = .ok C)
    (r c : Fin (1 * Q)) :
    ‖C r c - patternCoef islands host e.reciprocal e.sigma (0, (r : ℤ) - c)‖ ≤ patternTol islands host e.sigma := by
  obtain ⟨-, o2, b, -, rfl⟩ := make_eq_ok.1 he
  obtain ⟨-, -, -, rfl⟩ := analyticalC_eq_ok h ⟨by simp, by simp only at o2 ⊢; omega⟩
  simp only [Matrix.of_apply, table_second o2 r.2 c.2]
  have hd : diffAt 1 r c = (0, (r : ℤ) - c) := by simp [diffAt, Nat.mod_one]
  rw [hd]
  exact islandCoef_near hJ hp hs host _

/-- **C41, what the code does with as many orders along both vectors.** Rows and columns are orders
`(r % P, r / P)`; the entry is the Fourier coefficient at the difference of the orders *with its two components
exchanged*. -/
theorem C41_transposed (hJ : BesselOne jv1) {P : ℕ} {e : Expansion (P * P)}
    {C : Matrix (Fin (P * P)) (Fin (P * P)) ℂ} (he : Expansion.make tag (P, P) lat = .ok e)
    (hp : Periods e.reciprocal) (hs : ∀ s ∈ islands, s.shape.Proper) (h : analyticalC jv1 e islands host = .ok C)
    (r c : Fin (P * P)) :
    ‖C r c - patternCoef islands host e.reciprocal e.sigma
      (((r / P : ℕ) : ℤ) - (c / P : ℕ), ((r % P : ℕ) : ℤ) - (c % P : ℕ))‖ ≤ patternTol islands host e.sigma := by
  obtain ⟨o1, -, b, -, rfl⟩ := make_eq_ok.1 he
  obtain ⟨-, -, -, rfl⟩ := analyticalC_eq_ok h ⟨by simp only at o1 ⊢; omega, by simp only at o1 ⊢; omega⟩
  simp only [Matrix.of_apply, table_square o1 r.2 c.2, diffAt]
  exact islandCoef_near hJ hp hs host _

/-- **C41.** An analytical layer with islands and odd numbers of orders has a matrix. -/
theorem C41_exists (hJ : BesselOne jv1) {pw : ℕ × ℕ} {e : Expansion (pw.1 * pw.2)}
    (he : Expansion.make tag pw lat = .ok e) (hp : Periods e.reciprocal) (hne : islands ≠ [])
    (hs : ∀ s ∈ islands, s.shape.Proper) : ∃ C, analyticalC jv1 e islands host = .ok C := by
  obtain ⟨o1, o2, b, -, rfl⟩ := make_eq_ok.1 he
  refine ⟨_, analyticalC_ok (by exact o1) (by exact o2) hne fun s h k _ => ?_⟩
  have := hp (orderAt (triple pw.1, triple pw.2) k)
  rw [← latticeVec_eq] at this
  obtain ⟨-, -, t, ht, -⟩ := shape_transform hJ s (hs s h) this (unitCellArea lat.1 lat.2)
  exact ⟨t, ht⟩

/-- A square lattice of unit period. -/
theorem unit_periods : Periods ((2 * Real.pi, 0), (0, 2 * Real.pi)) := by
  intro mn
  have hpi := Real.two_le_pi
  have key : ∀ m : ℤ, m ≠ 0 → 1 / 10 ^ 8 < |(m : ℝ) * (2 * Real.pi)| := by
    intro m hm
    rw [abs_mul, abs_of_pos (by linarith : 0 < 2 * Real.pi)]
    have : (1 : ℝ) ≤ |(m : ℝ)| := by exact_mod_cast Int.one_le_abs hm
    nlinarith
  simp only [mul_zero, add_zero, zero_add]
  by_cases h1 : mn.1 = 0
  · by_cases h2 : mn.2 = 0
    · exact Or.inl (by simp [h1, h2])
    · exact Or.inr (Or.inr (key _ h2))
  · exact Or.inr (Or.inl (key _ h1))

theorem unit_expansion (tag : ℕ) {pw : ℕ × ℕ} (h1 : pw.1 % 2 = 1) (h2 : pw.2 % 2 = 1) :
    ∃ e : Expansion (pw.1 * pw.2), Expansion.make tag pw ((1, 0), (0, 1)) = .ok e ∧
      e.reciprocal = ((2 * Real.pi, 0), (0, 2 * Real.pi)) ∧ e.sigma = 1 ∧ e.pw = pw := by
  refine ⟨_, make_eq_ok.2 ⟨h1, h2, _, reciproc_eq_ok.2 ⟨by norm_num, rfl⟩, rfl⟩, ?_, ?_, rfl⟩
  · norm_num
  · norm_num [unitCellArea]

/-- Non-vacuity of C41: a disc and a rectangle on a square lattice, any odd number of orders. -/
example (P : ℕ) (hP : P % 2 = 1) : ∃ (jv1 : ℝ → ℝ) (e : Expansion (P * P)) (C : Matrix (Fin (P * P)) (Fin (P * P)) ℂ),
    BesselOne jv1 ∧ Expansion.make 0 (P, P) ((1, 0), (0, 1)) = .ok e ∧ Periods e.reciprocal ∧
    analyticalC jv1 e [⟨.disc 0.25 0.25 0.2, 4⟩, ⟨.rectangle 0.6 0.6 0.8 0.9, 9⟩] 1 = .ok C := by
  obtain ⟨e, he, hr, -, -⟩ := unit_expansion 0 (pw := (P, P)) hP hP
  have hp : Periods e.reciprocal := hr ▸ unit_periods
  obtain ⟨C, hC⟩ := C41_exists (jv1 := fun x => x / Real.pi * ∫ t in (-1 : ℝ)..1, Real.sqrt (1 - t ^ 2) * Real.cos (x * t))
    (islands := [⟨.disc 0.25 0.25 0.2, 4⟩, ⟨.rectangle 0.6 0.6 0.8 0.9, 9⟩]) (host := 1)
    (fun _ => rfl) he hp (by simp) (by simp [Shape.Proper]; norm_num)
  exact ⟨_, e, C, fun _ => rfl, he, hp, hC⟩

/-- **C41, counterexample.** A bar covering the left half of a unit cell, with 3 × 3 orders.  Between the orders
`(1, 0)` and `(0, 0)` (row 5, column 4) the bar diffracts: the pixmap of the drawing has a non-zero entry there.
The analytical layer of the same drawing has 0. -/
theorem C41_counterexample (jv1 : ℝ → ℝ) : ∃ (d0 d : Drawing 6 6) (e : Expansion (3 * 3))
    (A B : Matrix (Fin (3 * 3)) (Fin (3 * 3)) ℂ),
    Drawing.make 6 6 (.float 1) none = .ok d0 ∧ d0.rectangle (-(1 / 4), 0) (1 / 2, 1) (.float 4) = .ok d ∧
    Expansion.make 0 (3, 3) ((1, 0), (0, 1)) = .ok e ∧
    analyticalC jv1 e d.islands d.background.val = .ok A ∧ convolutionMatrix (3 * 3) ⟨6, 6, d.canvas⟩ (3, 3) = .ok B ∧
    A 5 4 = 0 ∧ B 5 4 ≠ 0 := by
  obtain ⟨d0, d, h0, h⟩ := C38_accepts (nx := 6) (ny := 6) (eps := .float 1) (lat := none)
    (ops := [DrawOp.rectangle (-(1 / 4), 0) (1 / 2, 1) (.float 4)]) (by norm_num) (by norm_num)
    (Or.inr (by simp [DrawOp.eps, PyNum.isComplex])) (by simp) (by simp)
  have hfit : ∀ op ∈ [DrawOp.rectangle (-(1 / 4), 0) (1 / 2, 1) (.float 4)],
      op.Fits ((none : Option (R2 × R2)).getD ((1, 0), (0, 1))) := by simp [DrawOp.Fits]
  have hpaint := C38_painter h0 h hfit
  have hcan : ∀ i j : Fin 6, d.canvas i j = if (i : ℕ) < 3 then 4 else 1 := by
    intro i j
    refine C38_painter_unique (hpaint i j) ?_
    have hj : |-(1 / 2) + ((j : ℕ) : ℝ) / 5| ≤ 1 / 2 := by
      have h5 : ((j : ℕ) : ℝ) ≤ 5 := by exact_mod_cast (by omega : (j : ℕ) ≤ 5)
      have h00 : (0 : ℝ) ≤ ((j : ℕ) : ℝ) := Nat.cast_nonneg _
      rw [abs_le]; constructor <;> linarith
    split_ifs with hi
    · refine Or.inr ⟨[], _, [], rfl, ?_, by simp, by simp [DrawOp.eps, PyNum.val]⟩
      have h2 : ((i : ℕ) : ℝ) ≤ 2 := by exact_mod_cast (by omega : (i : ℕ) ≤ 2)
      have h00 : (0 : ℝ) ≤ ((i : ℕ) : ℝ) := Nat.cast_nonneg _
      simp only [DrawOp.Covers, pixelAt, Option.getD_none]
      norm_num
      exact ⟨abs_le.2 ⟨by linarith, by linarith⟩, by simpa using hj⟩
    · refine Or.inl ⟨?_, by simp [PyNum.val]⟩
      have h3 : (3 : ℝ) ≤ ((i : ℕ) : ℝ) := by exact_mod_cast (by omega : 3 ≤ (i : ℕ))
      simp only [List.mem_singleton, forall_eq, DrawOp.Covers, pixelAt, Option.getD_none]
      rintro ⟨h1, -⟩
      norm_num at h1
      have := (abs_le.1 h1).2
      linarith
  have hop : d0.rectangle (-(1 / 4), 0) (1 / 2, 1) (.float 4) = .ok d := by
    simpa [DrawOp.call, List.foldlM] using h
  have hisl : d.islands = [⟨.rectangle 0 0 (1 / 2) 1, 4⟩] := by
    have h1 := draw_islands _ h
    obtain ⟨-, rfl⟩ := drawing_make_eq_ok.1 h0
    rw [h1]
    simp [DrawOp.recorded, PyNum.val]
    norm_num
  have hbg : d.background.val = 1 := by
    have h1 := (draw_sequence _ h (by
      obtain ⟨-, rfl⟩ := drawing_make_eq_ok.1 h0
      exact hfit)).2.1
    obtain ⟨-, rfl⟩ := drawing_make_eq_ok.1 h0
    rw [h1]; simp [PyNum.val]
  obtain ⟨e, he, hr, hsig, hpw⟩ := unit_expansion 0 (pw := (3, 3)) rfl rfl
  have hA := analyticalC_ok (jv1 := jv1) (e := e) (islands := [⟨.rectangle 0 0 (1 / 2) 1, 4⟩]) (host := 1)
    (by simp [hpw]) (by simp [hpw]) (by simp) (by
      intro s hs k _
      simp only [List.mem_singleton] at hs
      subst hs
      exact ⟨_, rfl⟩)
  have hB := convolutionMatrix_ok (a := ⟨6, 6, d.canvas⟩) (pw := (3, 3)) (by norm_num) (by norm_num) (by norm_num)
    (by norm_num)
  refine ⟨d0, d, e, _, _, h0, hop, he, by rw [hisl, hbg]; exact hA, hB, ?_, ?_⟩
  · rw [Matrix.of_apply, hpw, hr, hsig]
    have : orderAt (triple 3, triple 3) (tablePos (3, 3) ((5 : Fin (3 * 3)) : ℕ) ((4 : Fin (3 * 3)) : ℕ)) = (0, 1) := by
      decide
    rw [this]
    simp only [islandCoef, shapeValue, transformShape, latticeVec, List.map_cons, List.map_nil, List.sum_cons,
      List.sum_nil]
    rw [C42_exact]
    · have h2 : phi1 (-I * (0 * (0 : ℤ) + 2 * Real.pi * (1 : ℤ) : ℝ) * ((1 - 0 : ℝ) : ℂ)) = 0 := by
        have h3 : -I * (0 * (0 : ℤ) + 2 * Real.pi * (1 : ℤ) : ℝ) * ((1 - 0 : ℝ) : ℂ) = -(2 * Real.pi * I) := by
          push_cast; ring
        rw [h3, phi1, if_neg, exp_neg, exp_two_pi_mul_I]
        · simp
        · simp [Real.pi_ne_zero]
      simp only [rect_iterated]
      rw [h2]
      simp
    · simp
    · right
      have := Real.two_le_pi
      simp only [Int.cast_zero, Int.cast_one, zero_add, mul_zero]
      rw [abs_of_pos] <;> norm_num <;> linarith
  · have hd : diffAt 3 ((5 : Fin (3 * 3)) : ℕ) ((4 : Fin (3 * 3)) : ℕ) = (1, 0) := by decide
    rw [Matrix.of_apply, hd]
    set w : ℂ := exp (-(Real.pi * I / 3)) with hw
    have hw3 : w ^ 3 = -1 := by
      rw [hw, ← exp_nat_mul, show ((3 : ℕ) : ℂ) * -(Real.pi * I / 3) = -(Real.pi * I) by push_cast; ring, exp_neg,
        exp_pi_mul_I]
      norm_num
    have hsum : fourierCoef ⟨6, 6, d.canvas⟩ 1 0 = (1 + w + w ^ 2) / 2 := by
      have hwv : ∀ x y : ℕ, exp (-(2 * Real.pi * I * ((1 : ℤ) * x / (6 : ℕ) + (0 : ℤ) * y / (6 : ℕ)))) = w ^ x := by
        intro x y
        rw [hw, ← exp_nat_mul]
        congr 1; push_cast; ring
      simp only [fourierCoef, hcan, hwv, Finset.sum_const, Finset.card_univ, Fintype.card_fin]
      simp only [Fin.sum_univ_six]
      norm_num
      linear_combination (1 + w + w ^ 2) / 6 * hw3
    rw [hsum]
    intro h0
    have : (1 + w + w ^ 2) = 0 := by linear_combination 2 * h0
    have h1 : w ^ 3 = 1 := by linear_combination (w - 1) * this
    rw [hw3] at h1
    norm_num at h1

end Khepri
