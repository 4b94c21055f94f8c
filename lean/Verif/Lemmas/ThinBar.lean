import Verif.Props.Islands
import Mathlib.Analysis.Real.Pi.Bounds

/-! A thin lossy bar with 5 x 3 orders. -/

set_option linter.unusedSectionVars false

namespace Khepri

open Complex MeasureTheory Matrix

/-- The bar: a thousandth of the period wide, across the whole cell. -/
noncomputable def thinBar : Island := ⟨.rectangle (-(1 / 2000)) 0 (1 / 2000) 1, 1 - I⟩

noncomputable def barCoef (mn : ℤ × ℤ) : ℂ :=
  transformRectangle (-(1 / 2000)) 0 (1 / 2000) 1 (latticeVec ((2 * Real.pi, 0), (0, 2 * Real.pi)) mn) 1

theorem bar_vec (mn : ℤ × ℤ) : latticeVec ((2 * Real.pi, 0), (0, 2 * Real.pi)) mn = (2 * Real.pi * mn.1, 2 * Real.pi * mn.2) := by
  simp [latticeVec]

/-- Low orders of the bar all have nearly its filling fraction. -/
theorem bar_low {m : ℤ} (hm : |(m : ℝ)| ≤ 7) : 9 / 10000 ≤ (barCoef (m, 0)).re := by
  have hpi := Real.pi_lt_d2
  have hpi0 := Real.pi_pos
  have h1 := C42_rectangle (-(1 / 2000)) 0 (1 / 2000) 1 (2 * Real.pi * m, 0) 1
  have h2 : ‖(∫ x in (-(1 / 2000) : ℝ)..(1 / 2000), ∫ y in (0 : ℝ)..1, planeWave (2 * Real.pi * m, 0) (x, y)) - 1 / 1000‖ ≤
      1 / 25 * |(1 / 2000 : ℝ) - -(1 / 2000)| := by
    have e : (∫ x in (-(1 / 2000) : ℝ)..(1 / 2000), ∫ y in (0 : ℝ)..1, planeWave (2 * Real.pi * m, 0) (x, y)) - 1 / 1000 =
        ∫ x in (-(1 / 2000) : ℝ)..(1 / 2000), (exp (I * ((-(2 * Real.pi * m * x) : ℝ) : ℂ)) - 1) := by
      rw [intervalIntegral.integral_sub]
      · congr 1
        · refine intervalIntegral.integral_congr fun x _ => ?_
          simp only [planeWave, zero_mul, add_zero, intervalIntegral.integral_const, sub_zero, one_smul]
          congr 1; push_cast; ring
        · simp; norm_num
      · exact (Continuous.intervalIntegrable (by fun_prop) _ _)
      · exact (Continuous.intervalIntegrable (by fun_prop) _ _)
    rw [e]
    refine intervalIntegral.norm_integral_le_of_norm_le_const fun x hx => ?_
    rw [Set.uIoc_of_le (by norm_num)] at hx
    refine (Real.norm_exp_I_mul_ofReal_sub_one_le).trans ?_
    rw [Real.norm_eq_abs, abs_neg, abs_mul, abs_mul, abs_of_pos (by positivity : 0 < 2 * Real.pi)]
    have hx' : |x| ≤ 1 / 2000 := abs_le.2 ⟨by linarith [hx.1], hx.2⟩
    calc 2 * Real.pi * |(m : ℝ)| * |x| ≤ 2 * 3.15 * 7 * (1 / 2000) := by gcongr
      _ ≤ 1 / 25 := by norm_num
  have h3 : |(1 / 2000 : ℝ) - -(1 / 2000)| = 1 / 1000 := by rw [abs_of_pos] <;> norm_num
  rw [h3] at h2
  have e0 : barCoef (m, 0) = transformRectangle (-(1 / 2000)) 0 (1 / 2000) 1 (2 * Real.pi * m, 0) 1 := by
    rw [barCoef, bar_vec]; simp
  rw [← e0] at h1
  set J := ∫ x in (-(1 / 2000) : ℝ)..(1 / 2000), ∫ y in (0 : ℝ)..1, planeWave (2 * Real.pi * m, 0) (x, y)
  have h4 : |((1 / 2000 : ℝ) - -(1 / 2000)) * (1 - 0) / 1| / 10 ^ 18 ≤ 1 / 100000 := by
    rw [sub_zero, mul_one, div_one, h3]; norm_num
  have h5 : ‖barCoef (m, 0) - 1 / 1000‖ ≤ 1 / 100000 + 1 / 25 * (1 / 1000) := by
    have e : barCoef (m, 0) - 1 / 1000 = (barCoef (m, 0) - 1 / (1 : ℝ) * J) + (J - 1 / 1000) := by push_cast; ring
    rw [e]
    exact (norm_add_le _ _).trans (add_le_add (h1.trans h4) h2)
  have h6 := (abs_le.1 ((abs_re_le_norm _).trans h5)).1
  have h7 : (barCoef (m, 0) - 1 / 1000).re = (barCoef (m, 0)).re - 1 / 1000 := by
    rw [sub_re]; norm_num
  rw [h7] at h6
  norm_num at h6 ⊢
  linarith

/-- Orders across the bar vanish. -/
theorem bar_across {m n : ℤ} (hn : n ≠ 0) : barCoef (m, n) = 0 := by
  have hpi := Real.two_le_pi
  have hz : fexpz (-I * ((2 * Real.pi * n : ℝ) : ℂ) * ((1 - 0 : ℝ) : ℂ)) = 0 := by
    have hn1 : (1 : ℝ) ≤ |(n : ℝ)| := by exact_mod_cast Int.one_le_abs hn
    rw [fexpz, if_pos]
    · have : exp (-I * ((2 * Real.pi * n : ℝ) : ℂ) * ((1 - 0 : ℝ) : ℂ)) = 1 := by
        rw [show -I * ((2 * Real.pi * n : ℝ) : ℂ) * ((1 - 0 : ℝ) : ℂ) = ((-n : ℤ) : ℂ) * (2 * Real.pi * I) by push_cast; ring]
        exact exp_int_mul_two_pi_mul_I _
      rw [this, sub_self, zero_div]
    · rw [norm_mul, norm_mul, norm_neg, norm_I, Complex.norm_real, Complex.norm_real, Real.norm_eq_abs, abs_mul,
        abs_of_pos (by linarith : 0 < 2 * Real.pi)]
      norm_num
      nlinarith
  rw [barCoef, bar_vec]
  simp only [transformRectangle]
  rw [hz]
  simp

theorem bar_zero : barCoef (0, 0) = ((1 / 1000 : ℝ) : ℂ) := by
  have := C42_zero (-(1 / 2000)) 0 (1 / 2000) 1 1
  rw [barCoef, bar_vec]
  simp only [Int.cast_zero, mul_zero]
  rw [this]
  norm_num

theorem bar_neg (m : ℤ) : (barCoef (-m, 0)).re = (barCoef (m, 0)).re := by
  have := C42_conj (-(1 / 2000)) 0 (1 / 2000) 1 (2 * Real.pi * m, 0) 1
  rw [barCoef, barCoef, bar_vec, bar_vec]
  simp only [Int.cast_neg, Int.cast_zero, mul_zero, mul_neg]
  simp only [neg_zero] at this
  rw [this]
  simp

end Khepri
