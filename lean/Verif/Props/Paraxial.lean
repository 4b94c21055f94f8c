import Verif.Lemmas.Paraxial

/-!
# C68: paraxial beams
-/

namespace Khepri

open Complex MeasureTheory

/-! ## C68 -/

/-- **C68.** The Laguerre-Gauss beam without rings or vortex is the Gaussian beam. -/
theorem C68_gaussian (wl w er : ℝ) (r : Fin 3 → ℝ) : laguerreField wl w er 0 0 r = gaussianField wl w er r :=
  laguerre_zero wl w er r

/-- **C68 (partial).** In vacuum, Laguerre-Gauss beams of all orders obey the paraxial wave equation.  What is missing:
other media (see `C68_medium`). -/
theorem C68_vacuum_partial {wl w : ℝ} (hl : wl ≠ 0) (hw : w ≠ 0) (p : ℕ) (l : ℤ) :
    ParaxialWave (2 * Real.pi / wl) fun x y z => (laguerreField wl w 1 p l ![x, y, z]).1 0 := by
  have hb : Real.pi * w ^ 2 / wl ≠ 0 := div_ne_zero (mul_ne_zero Real.pi_ne_zero (pow_ne_zero 2 hw)) hl
  have h := envU_paraxial hw hb (σ := if 0 ≤ l then -1 else 1) (by split_ifs <;> norm_num)
    ((Real.sqrt 2 / w : ℝ) ^ l.natAbs : ℂ) p l.natAbs
  have hk : 2 * (Real.pi * w ^ 2 / wl) / w ^ 2 = 2 * Real.pi / wl := by field_simp
  rw [hk] at h
  have e : (fun x y z => (laguerreField wl w 1 p l ![x, y, z]).1 0 * exp (-(I * ((2 * Real.pi / wl : ℝ) * z)))) =
      envU ((Real.sqrt 2 / w : ℝ) ^ l.natAbs) (if 0 ≤ l then -1 else 1) w (Real.pi * w ^ 2 / wl) p l.natAbs := by
    funext x y z
    exact laguerre_env hl hw p l x y z
  unfold ParaxialWave
  rw [e]
  exact h

/-- A beam with a vortex of charge -2 and one ring. -/
example : ParaxialWave (2 * Real.pi / 0.5) fun x y z => (laguerreField 0.5 3 1 1 (-2) ![x, y, z]).1 0 :=
  C68_vacuum_partial (by norm_num) (by norm_num) 1 (-2)

/-- **C68** is false outside vacuum: the Gaussian beam in a medium of permittivity `er` obeys the paraxial equation of
that medium exactly if `er = 1`. -/
theorem C68_medium {wl w er : ℝ} (hl : wl ≠ 0) (hw : w ≠ 0) (her : 0 < er) :
    ParaxialWave (Real.sqrt er * (2 * Real.pi / wl)) (fun x y z => (gaussianField wl w er ![x, y, z]).1 0) ↔ er = 1 := by
  constructor
  · intro h
    obtain ⟨ux, uxx, uy, uyy, uz, h⟩ := h
    set K := Real.sqrt er * (2 * Real.pi / wl) with hK
    set b := Real.pi * w ^ 2 * Real.sqrt er / wl with hb
    have hx : uxx 0 0 0 = ((-(2 / w ^ 2) : ℝ) : ℂ) := by
      have e : (fun x => ux x 0 0) = fun x : ℝ => (((-(2 * x) / w ^ 2) * Real.exp (-(x ^ 2) / w ^ 2) : ℝ) : ℂ) := by
        funext x
        have h1 := (h x 0 0).1
        simp only [gaussian_focus hw, ne_eq, OfNat.ofNat_ne_zero, not_false_eq_true, zero_pow, add_zero, ofReal_zero, mul_zero,
          neg_zero, Complex.exp_zero, mul_one] at h1
        exact h1.unique (hasDerivAt_focus w x)
      have h1 := (h 0 0 0).2.1
      rw [e] at h1
      exact h1.unique (hasDerivAt_focus2 w)
    have hy : uyy 0 0 0 = ((-(2 / w ^ 2) : ℝ) : ℂ) := by
      have e : (fun y => uy 0 y 0) = fun x : ℝ => (((-(2 * x) / w ^ 2) * Real.exp (-(x ^ 2) / w ^ 2) : ℝ) : ℂ) := by
        funext y
        have h1 := (h 0 y 0).2.2.1
        simp only [gaussian_focus hw, ne_eq, OfNat.ofNat_ne_zero, not_false_eq_true, zero_pow, zero_add, ofReal_zero, mul_zero,
          neg_zero, Complex.exp_zero, mul_one] at h1
        exact h1.unique (hasDerivAt_focus w y)
      have h1 := (h 0 0 0).2.2.2.1
      rw [e] at h1
      exact h1.unique (hasDerivAt_focus2 w)
    have hz : uz 0 0 0 = I * ((2 * Real.pi / wl : ℝ) - 1 / b - K) := by
      have h1 := (h 0 0 0).2.2.2.2.1
      simp only [gaussian_axis hw] at h1
      exact h1.unique (hasDerivAt_axis b (2 * Real.pi / wl) K)
    have h6 := (h 0 0 0).2.2.2.2.2
    rw [hx, hy, hz] at h6
    have hr : 0 < Real.sqrt er := Real.sqrt_pos.2 her
    have h7 : (-(2 / w ^ 2) + -(2 / w ^ 2) - 2 * K * (2 * Real.pi / wl - 1 / b - K) : ℝ) = 0 := by
      have : ((-(2 / w ^ 2) + -(2 / w ^ 2) - 2 * K * (2 * Real.pi / wl - 1 / b - K) : ℝ) : ℂ) = 0 := by
        rw [← h6]; push_cast; linear_combination (-2 * (K : ℂ) * (2 * Real.pi / wl - 1 / b - K)) * I_sq
      exact_mod_cast this
    rw [hK, hb] at h7
    have hp := Real.pi_pos
    field_simp at h7
    have h8 : Real.sqrt er = 1 := by
      have h9 : (Real.sqrt er - 1) * (8 * Real.pi ^ 2 * w ^ 2 * Real.sqrt er) = 0 := by
        linear_combination h7
      rcases mul_eq_zero.1 h9 with h | h
      · linarith
      · exact absurd h (by positivity)
    rw [← Real.sq_sqrt her.le, h8, one_pow]
  · rintro rfl
    simpa [C68_gaussian] using C68_vacuum_partial hl hw 0 0

/-- **C68** is false outside vacuum for the magnetic field too: a wave going to `+z` in a medium of permittivity `er` has
`Hy = √er Ex` (with `Hy = Ex` in vacuum); the Gaussian beam has it exactly if `er = 1`. -/
theorem C68_impedance {wl w er : ℝ} (hw : w ≠ 0) (her : 0 < er) :
    (∀ r, (gaussianField wl w er r).2 1 = Real.sqrt er * (gaussianField wl w er r).1 0) ↔ er = 1 := by
  constructor
  · intro h
    have h0 := h 0
    simp only [gaussianField, Matrix.cons_val_zero, Matrix.cons_val_one, Pi.zero_apply, zero_div, ne_eq, OfNat.ofNat_ne_zero,
      not_false_eq_true, zero_pow, add_zero, Real.sqrt_one, mul_one, div_self hw, Real.sqrt_zero, neg_zero, Real.exp_zero,
      mul_zero, Real.arctan_zero, sub_zero, ofReal_zero, Complex.exp_zero, ofReal_one] at h0
    have h1 : (Real.sqrt er : ℂ) ≠ 0 := by exact_mod_cast (Real.sqrt_pos.2 her).ne'
    rw [div_eq_iff h1] at h0
    have h2 : Real.sqrt er * Real.sqrt er = 1 := by exact_mod_cast h0.symm
    rwa [Real.mul_self_sqrt her.le] at h2
  · rintro rfl r
    simp [gaussianField]

/-- **C68.** Turning the point of observation about the axis by `t` multiplies the field by `exp(i l t)`: the phase
winds `l` times. -/
theorem C68_vortex (wl w er : ℝ) (p : ℕ) (l : ℤ) (x y z t : ℝ) :
    (laguerreField wl w er p l ![Real.cos t * x - Real.sin t * y, Real.sin t * x + Real.cos t * y, z]).1 0 =
      exp (I * l * t) * (laguerreField wl w er p l ![x, y, z]).1 0 := by
  simp only [laguerreField, Matrix.cons_val_zero, Matrix.cons_val_one, Matrix.cons_val]
  have hr : (Real.cos t * x - Real.sin t * y) ^ 2 + (Real.sin t * x + Real.cos t * y) ^ 2 = x ^ 2 + y ^ 2 := by
    linear_combination (x ^ 2 + y ^ 2) * Real.sin_sq_add_cos_sq t
  rw [hr]
  by_cases h0 : x ^ 2 + y ^ 2 = 0
  · obtain ⟨rfl, rfl⟩ : x = 0 ∧ y = 0 := by constructor <;> nlinarith [sq_nonneg x, sq_nonneg y]
    rcases eq_or_ne l 0 with rfl | hl
    · simp
    · simp [hl]
  · have hv := vortex_eq l x y
    have hv' := vortex_eq l (Real.cos t * x - Real.sin t * y) (Real.sin t * x + Real.cos t * y)
    rw [hr] at hv'
    have hne : ((Real.sqrt (x ^ 2 + y ^ 2) : ℝ) : ℂ) ^ l.natAbs ≠ 0 :=
      pow_ne_zero _ (by
        have : Real.sqrt (x ^ 2 + y ^ 2) ≠ 0 := by rw [Real.sqrt_ne_zero (by positivity)]; exact h0
        exact_mod_cast this)
    have key : exp (-I * l * (Complex.arg (⟨Real.sin t * x + Real.cos t * y, Real.cos t * x - Real.sin t * y⟩ : ℂ) : ℂ)) =
        exp (I * l * t) * exp (-I * l * (Complex.arg (⟨y, x⟩ : ℂ) : ℂ)) := by
      refine mul_left_cancel₀ hne ?_
      rw [hv', mul_left_comm, hv]
      have hc : exp (t * I) = Real.cos t + Real.sin t * I := by rw [exp_mul_I, ofReal_cos, ofReal_sin]
      have hc' : exp (-(t * I)) = Real.cos t - Real.sin t * I := by
        rw [← neg_mul, ← ofReal_neg, exp_mul_I, ← ofReal_cos, ← ofReal_sin, Real.cos_neg, Real.sin_neg]; push_cast; ring
      split_ifs with h
      · obtain ⟨k, rfl⟩ := Int.eq_ofNat_of_zero_le h
        have : exp (I * ((k : ℤ) : ℂ) * (t : ℂ)) = exp (t * I) ^ k := by
          rw [← Complex.exp_nat_mul]; congr 1; push_cast; ring
        rw [this, hc, Int.natAbs_natCast, ← mul_pow]
        congr 1
        push_cast
        linear_combination (Complex.sin t * x : ℂ) * I_sq
      · obtain ⟨k, hk⟩ := Int.eq_ofNat_of_zero_le (by omega : 0 ≤ -l)
        obtain rfl : l = -(k : ℤ) := by omega
        have : exp (I * ((-(k : ℤ) : ℤ) : ℂ) * (t : ℂ)) = exp (-(t * I)) ^ k := by
          rw [← Complex.exp_nat_mul]; congr 1; push_cast; ring
        rw [this, hc', Int.natAbs_neg, Int.natAbs_natCast, ← mul_pow]
        congr 1
        push_cast
        linear_combination (Complex.sin t * x : ℂ) * I_sq
    rw [key]
    ring

/-- **C68.** The power crossing a plane is the same for all planes. -/
theorem C68_power {wl w er : ℝ} (hw : w ≠ 0) (p : ℕ) (l : ℤ) (z : ℝ) :
    ∫⁻ q : ℝ × ℝ, ENNReal.ofReal (‖(laguerreField wl w er p l ![q.1, q.2, z]).1 0‖ ^ 2) =
      ∫⁻ q : ℝ × ℝ, ENNReal.ofReal (‖(laguerreField wl w er p l ![q.1, q.2, 0]).1 0‖ ^ 2) := by
  obtain ⟨S, hS⟩ : ∃ S, S = Real.sqrt (1 + (z / (Real.pi * w ^ 2 * Real.sqrt er / wl)) ^ 2) := ⟨_, rfl⟩
  have hS0 : 0 < S := hS ▸ Real.sqrt_pos.2 (by positivity)
  have h1 : ∀ q : ℝ × ℝ, ENNReal.ofReal (‖(laguerreField wl w er p l ![q.1, q.2, z]).1 0‖ ^ 2) =
      ENNReal.ofReal (S⁻¹ ^ 2) *
        (fun q : ℝ × ℝ => ENNReal.ofReal (‖(laguerreField wl w er p l ![q.1, q.2, 0]).1 0‖ ^ 2)) (S⁻¹ • q) := by
    intro q
    rw [laguerre_norm hw p l q.1 q.2 z S hS, mul_pow, ENNReal.ofReal_mul (by positivity)]
    rfl
  simp only [h1]
  rw [lintegral_const_mul' _ _ ENNReal.ofReal_ne_top,
    lintegral_plane_scale (f := fun q : ℝ × ℝ => ENNReal.ofReal (‖(laguerreField wl w er p l ![q.1, q.2, 0]).1 0‖ ^ 2))
      (inv_ne_zero hS0.ne'), ← mul_assoc, ← ENNReal.ofReal_mul (by positivity)]
  rw [mul_inv_cancel₀ (by positivity), ENNReal.ofReal_one, one_mul]

/-- **C68.** The waist is where the field has fallen to `1/e`, and the power of a Gaussian beam of unit peak amplitude
and waist `w` is `π w² / 2` through every plane. -/
theorem C68_waist {wl w er : ℝ} (hw : w ≠ 0) (z : ℝ) :
    (∀ x y, ‖(gaussianField wl w er ![x, y, 0]).1 0‖ = Real.exp (-(x ^ 2 + y ^ 2) / w ^ 2)) ∧
    ∫⁻ q : ℝ × ℝ, ENNReal.ofReal (‖(gaussianField wl w er ![q.1, q.2, z]).1 0‖ ^ 2) = ENNReal.ofReal (Real.pi * w ^ 2 / 2) := by
  have h0 : ∀ x y, ‖(gaussianField wl w er ![x, y, 0]).1 0‖ = Real.exp (-(x ^ 2 + y ^ 2) / w ^ 2) := by
    intro x y
    rw [gaussian_focus hw, Complex.norm_real, Real.norm_of_nonneg (Real.exp_pos _).le]
  refine ⟨h0, ?_⟩
  have h1 := C68_power (wl := wl) (er := er) hw 0 0 z
  simp only [C68_gaussian] at h1
  rw [h1]
  simp only [h0]
  have h2 : (fun q : ℝ × ℝ => Real.exp (-(q.1 ^ 2 + q.2 ^ 2) / w ^ 2) ^ 2) =
      fun q : ℝ × ℝ => Real.exp (-(2 / w ^ 2) * q.1 ^ 2) * Real.exp (-(2 / w ^ 2) * q.2 ^ 2) := by
    funext q
    rw [← Real.exp_nat_mul, ← Real.exp_add]
    congr 1
    push_cast
    ring
  have hb : 0 < 2 / w ^ 2 := by positivity
  have hi : Integrable (fun q : ℝ × ℝ => Real.exp (-(2 / w ^ 2) * q.1 ^ 2) * Real.exp (-(2 / w ^ 2) * q.2 ^ 2)) := by
    have := (integrable_exp_neg_mul_sq hb).mul_prod (integrable_exp_neg_mul_sq hb)
    exact this
  rw [← ofReal_integral_eq_lintegral_ofReal (by rw [h2]; exact hi) (Filter.Eventually.of_forall fun q => by positivity), h2]
  congr 1
  have h3 := integral_prod_mul (μ := (volume : Measure ℝ)) (ν := (volume : Measure ℝ))
    (fun x : ℝ => Real.exp (-(2 / w ^ 2) * x ^ 2)) (fun x : ℝ => Real.exp (-(2 / w ^ 2) * x ^ 2))
  rw [integral_gaussian, Real.mul_self_sqrt (by positivity)] at h3
  rw [← Measure.volume_eq_prod] at h3
  rw [h3]
  field_simp

end Khepri
