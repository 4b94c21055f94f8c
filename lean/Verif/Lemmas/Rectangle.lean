import Verif.Model.Fourier
import Mathlib.Analysis.SpecialFunctions.Integrals.Basic

/-!
The Fourier integral of a rectangle.
-/

set_option linter.unusedSectionVars false

namespace Khepri

open Complex intervalIntegral

/-- `(exp z - 1) / z`, 1 at 0. -/
noncomputable def phi1 (z : ℂ) : ℂ := if z = 0 then 1 else (exp z - 1) / z

theorem integral_wave (g l u : ℝ) :
    ∫ x in l..u, exp (-I * (g * x)) = (u - l) * exp (-I * (l * g)) * phi1 (-I * g * (u - l : ℝ)) := by
  by_cases hg : g = 0
  · simp [hg, phi1]
  · have hc : -I * (g : ℂ) ≠ 0 := by simp [hg]
    have h1 : ∫ x in l..u, exp (-I * (g * x)) = (exp (-I * g * u) - exp (-I * g * l)) / (-I * g) := by
      rw [← integral_exp_mul_complex hc]
      simp only [mul_assoc]
    rw [h1]
    by_cases hul : u = l
    · subst hul; simp
    · have hul' : ((u : ℂ) - l) ≠ 0 := by rw [sub_ne_zero]; exact_mod_cast hul
      rw [phi1, if_neg (by push_cast; exact mul_ne_zero hc hul')]
      have e1 : exp (-I * g * u) = exp (-I * (l * g)) * exp (-I * g * (u - l : ℝ)) := by
        rw [← exp_add]; congr 1; push_cast; ring
      have e2 : exp (-I * g * l) = exp (-I * (l * g)) := by congr 1; ring
      rw [e1, e2]
      push_cast
      have : (g : ℂ) ≠ 0 := by exact_mod_cast hg
      field_simp

theorem fexpz_big {z : ℂ} (h : 1 / 100 < ‖z‖) : fexpz z = phi1 z := by
  have hz : z ≠ 0 := by rintro rfl; norm_num at h
  rw [fexpz, if_pos h, phi1, if_neg hz]

theorem fexpz_zero : fexpz 0 = 1 := by
  rw [fexpz, if_neg (by norm_num)]; simp

theorem fexpz_err (z : ℂ) : ‖fexpz z - phi1 z‖ ≤ 1 / (3 * 10 ^ 18) := by
  by_cases h : 1 / 100 < ‖z‖
  · rw [fexpz_big h, sub_self, norm_zero]; positivity
  · by_cases hz : z = 0
    · subst hz; rw [fexpz_zero, phi1, if_pos rfl, sub_self, norm_zero]; positivity
    · push Not at h
      rw [fexpz, if_neg (not_lt.2 h), phi1, if_neg hz]
      have hb := exp_bound (x := z) (by linarith) (n := 8) (by norm_num)
      have hzn : 0 < ‖z‖ := norm_pos_iff.2 hz
      have e : 1 + z / 2 * (1 + z / 3 * (1 + z / 4 * (1 + z / 5 * (1 + z / 6 * (1 + z / 7))))) - (exp z - 1) / z =
          -((exp z - ∑ m ∈ Finset.range 8, z ^ m / m.factorial) / z) := by
        simp only [Finset.sum_range_succ, Finset.sum_range_zero, Nat.factorial]
        push_cast
        field_simp
        ring
      rw [e, norm_neg, norm_div, div_le_iff₀ hzn]
      refine hb.trans ?_
      have h7 : ‖z‖ ^ 7 ≤ (1 / 100) ^ 7 := pow_le_pow_left₀ hzn.le h 7
      have h8 : ‖z‖ ^ 8 = ‖z‖ ^ 7 * ‖z‖ := by ring
      simp only [Nat.factorial, Nat.succ_eq_add_one]
      push_cast
      rw [h8]
      have : ‖z‖ ^ 7 * ‖z‖ ≤ (1 / 100) ^ 7 * ‖z‖ := by gcongr
      refine (mul_le_mul_of_nonneg_right this (by norm_num)).trans ?_
      norm_num
      nlinarith

theorem norm_exp_I (x : ℝ) : ‖exp (-I * x)‖ = 1 := by
  rw [norm_exp]; simp

theorem phi1_norm_le (x : ℝ) : ‖phi1 (-I * x)‖ ≤ 1 := by
  have h := integral_wave x 0 1
  simp only [ofReal_zero, zero_mul, mul_zero, exp_zero, mul_one, ofReal_one, sub_zero, one_mul] at h
  rw [← h]
  refine (intervalIntegral.norm_integral_le_of_norm_le_const (C := 1) fun t _ => ?_).trans (by norm_num)
  rw [← ofReal_mul, norm_exp_I]

end Khepri
