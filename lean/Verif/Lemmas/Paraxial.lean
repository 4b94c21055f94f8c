import Verif.Model.Beams
import Verif.Spec.Beams
import Mathlib.Analysis.SpecialFunctions.Complex.Arctan
import Mathlib.Analysis.Calculus.Deriv.Polynomial
import Mathlib.Analysis.Calculus.Deriv.Pow
import Mathlib.Analysis.SpecialFunctions.ExpDeriv
import Mathlib.Algebra.Polynomial.Derivative
import Mathlib.MeasureTheory.Measure.Lebesgue.EqHaar
import Mathlib.Analysis.SpecialFunctions.Gaussian.GaussianIntegral

set_option linter.unusedSectionVars false

/-!
# Paraxial beams: helper lemmas
-/

namespace Khepri

open Complex Polynomial

/-! ### Laguerre polynomials -/

/-- The coefficients of the generalised Laguerre polynomials. -/
noncomputable def lagCoef (p a n : ℕ) : ℂ :=
  if n ≤ p then (-1) ^ n * (Nat.choose (p + a) (p - n) : ℂ) / (Nat.factorial n : ℂ) else 0

/-- The generalised Laguerre polynomials. -/
noncomputable def lagPoly (p a : ℕ) : ℂ[X] := ∑ i ∈ Finset.range (p + 1), monomial i (lagCoef p a i)

theorem lagPoly_coeff (p a n : ℕ) : (lagPoly p a).coeff n = lagCoef p a n := by
  rw [lagPoly, finsetSum_coeff]
  simp only [coeff_monomial]
  rw [Finset.sum_ite_eq']
  split_ifs with h
  · rfl
  · rw [lagCoef, if_neg]
    simpa using h

theorem lagPoly_eval (p a : ℕ) (x : ℝ) : (lagPoly p a).eval (x : ℂ) = (genLaguerre p a x : ℂ) := by
  rw [lagPoly, eval_finsetSum, genLaguerre, ofReal_sum]
  refine Finset.sum_congr rfl fun i hi => ?_
  rw [eval_monomial, lagCoef, if_pos (by simpa [Nat.lt_succ_iff] using hi)]
  push_cast
  ring

theorem lagCoef_step (p a n : ℕ) :
    ((n : ℂ) + 1) * (n + a + 1) * lagCoef p a (n + 1) = ((n : ℂ) - p) * lagCoef p a n := by
  rcases lt_trichotomy n p with h | h | h
  · rw [lagCoef, lagCoef, if_pos (Nat.succ_le_of_lt h), if_pos h.le]
    obtain ⟨k, rfl⟩ : ∃ k, p = n + 1 + k := ⟨p - (n + 1), by omega⟩
    have h1 : n + 1 + k - (n + 1) = k := by omega
    have h2 : n + 1 + k - n = k + 1 := by omega
    rw [h1, h2]
    have := Nat.choose_succ_right_eq (n + 1 + k + a) k
    have h3 : n + 1 + k + a - k = n + 1 + a := by omega
    rw [h3] at this
    have h4 : ((Nat.choose (n + 1 + k + a) (k + 1) : ℂ)) * (k + 1) =
        (Nat.choose (n + 1 + k + a) k : ℂ) * (n + 1 + a) := by exact_mod_cast this
    have h5 : (Nat.factorial n : ℂ) ≠ 0 := by exact_mod_cast Nat.factorial_ne_zero n
    have h6 : (n : ℂ) + 1 ≠ 0 := by exact_mod_cast Nat.succ_ne_zero n
    rw [Nat.factorial_succ]
    push_cast
    field_simp
    rw [pow_succ]
    linear_combination (-1) ^ n * h4
  · subst h
    rw [lagCoef, if_neg (by omega)]
    simp
  · rw [lagCoef, lagCoef, if_neg (by omega), if_neg (by omega)]
    simp

/-- Laguerre's differential equation. -/
theorem lag_ode (p a : ℕ) :
    X * derivative (derivative (lagPoly p a)) + (C ((a : ℂ) + 1) - X) * derivative (lagPoly p a) +
      C (p : ℂ) * lagPoly p a = 0 := by
  ext n
  rw [sub_mul]
  simp only [coeff_add, coeff_sub, coeff_C_mul, coeff_zero]
  rcases n with - | n
  · simp only [coeff_X_mul_zero, coeff_derivative, lagPoly_coeff]
    have := lagCoef_step p a 0
    push_cast at this ⊢
    linear_combination this
  · simp only [coeff_X_mul, coeff_derivative, lagPoly_coeff]
    have := lagCoef_step p a (n + 1)
    push_cast at this ⊢
    linear_combination this

theorem lag_ode_eval (p a : ℕ) (x : ℂ) :
    x * (derivative (derivative (lagPoly p a))).eval x + (a + 1 - x) * (derivative (lagPoly p a)).eval x +
      p * (lagPoly p a).eval x = 0 := by
  have := congrArg (eval x) (lag_ode p a)
  simpa using this

/-! ### The envelope in closed form -/

/-- The dependence of the envelope on `s = x² + y²` and `z`: waist `w`, Rayleigh length `b`. -/
noncomputable def envG (w b : ℝ) (p a : ℕ) (s z : ℝ) : ℂ :=
  (1 + I * (z / b))⁻¹ ^ (a + 1) * ((1 - I * (z / b)) * (1 + I * (z / b))⁻¹) ^ p *
    (lagPoly p a).eval (2 * s / (w ^ 2 * ((1 + I * (z / b)) * (1 - I * (z / b)))) : ℂ) *
    exp (-s / (w ^ 2 * (1 + I * (z / b))))

theorem cp_ne (t : ℝ) : (1 + I * (t : ℂ)) ≠ 0 := by
  intro h
  have := congrArg re h
  simp at this

theorem cm_ne (t : ℝ) : (1 - I * (t : ℂ)) ≠ 0 := by
  intro h
  have := congrArg re h
  simp at this

theorem pow_pred_mul (p : ℕ) (q : ℂ) (hq : q ≠ 0) : (p : ℂ) * q ^ (p - 1) = p * q ^ p * q⁻¹ := by
  rcases p with - | p
  · simp
  · rw [Nat.add_sub_cancel, pow_succ]
    field_simp

section
variable (w b : ℝ) (p a : ℕ) (s z : ℝ)

/-- The first derivative of the polynomial, at the argument of the envelope. -/
noncomputable def envArg : ℂ := 2 * s / (w ^ 2 * ((1 + I * (z / b)) * (1 - I * (z / b))))

/-- The factors of the envelope other than the polynomial. -/
noncomputable def envF : ℂ := (1 + I * (z / b))⁻¹ ^ (a + 1) * ((1 - I * (z / b)) * (1 + I * (z / b))⁻¹) ^ p *
    exp (-s / (w ^ 2 * (1 + I * (z / b))))

/-- Derivative in `s`. -/
noncomputable def envGs : ℂ := envF w b p a s z *
  ((derivative (lagPoly p a)).eval (envArg w b s z) * (2 / (w ^ 2 * ((1 + I * (z / b)) * (1 - I * (z / b))))) -
   (lagPoly p a).eval (envArg w b s z) * (1 / (w ^ 2 * (1 + I * (z / b)))))

/-- Second derivative in `s`. -/
noncomputable def envGss : ℂ := envF w b p a s z *
  ((derivative (derivative (lagPoly p a))).eval (envArg w b s z) * (2 / (w ^ 2 * ((1 + I * (z / b)) * (1 - I * (z / b))))) ^ 2 -
   2 * (derivative (lagPoly p a)).eval (envArg w b s z) * (2 / (w ^ 2 * ((1 + I * (z / b)) * (1 - I * (z / b))))) *
    (1 / (w ^ 2 * (1 + I * (z / b)))) +
   (lagPoly p a).eval (envArg w b s z) * (1 / (w ^ 2 * (1 + I * (z / b)))) ^ 2)

/-- Derivative in `z`. -/
noncomputable def envGz : ℂ := envF w b p a s z *
  ((lagPoly p a).eval (envArg w b s z) * (-(a + 1) * (I / b) / (1 + I * (z / b)) +
      p * (-(I / b) / (1 - I * (z / b)) - (I / b) / (1 + I * (z / b))) + s / (w ^ 2 * (1 + I * (z / b)) ^ 2) * (I / b)) +
    (derivative (lagPoly p a)).eval (envArg w b s z) *
      (-(2 * s / w ^ 2) * (2 * z / b ^ 2) / ((1 + I * (z / b)) * (1 - I * (z / b))) ^ 2))

end

theorem envG_eq (w b : ℝ) (p a : ℕ) (s z : ℝ) : envG w b p a s z = envF w b p a s z * (lagPoly p a).eval (envArg w b s z) := by
  simp only [envG, envF, envArg]; ring

theorem hasDerivAt_envArg_s (w b : ℝ) (s z : ℝ) :
    HasDerivAt (fun s => envArg w b s z) (2 / (w ^ 2 * ((1 + I * (z / b)) * (1 - I * (z / b))))) s := by
  unfold envArg
  have h : HasDerivAt (fun s : ℝ => (s : ℂ)) 1 s := Complex.ofRealCLM.hasDerivAt
  simpa using (h.const_mul 2).div_const (w ^ 2 * ((1 + I * (z / b)) * (1 - I * (z / b))) : ℂ)

theorem hasDerivAt_envF_s (w b : ℝ) (p a : ℕ) (s z : ℝ) :
    HasDerivAt (fun s => envF w b p a s z) (envF w b p a s z * -(1 / (w ^ 2 * (1 + I * (z / b))))) s := by
  unfold envF
  have h : HasDerivAt (fun s : ℝ => (s : ℂ)) 1 s := Complex.ofRealCLM.hasDerivAt
  have := ((h.neg.div_const (w ^ 2 * (1 + I * (z / b)) : ℂ)).cexp).const_mul
    ((1 + I * ((z : ℂ) / b))⁻¹ ^ (a + 1) * ((1 - I * (z / b)) * (1 + I * (z / b))⁻¹) ^ p)
  refine this.congr_deriv ?_
  simp only [Pi.neg_apply]
  ring

theorem hasDerivAt_poly_comp (P : ℂ[X]) {f : ℝ → ℂ} {f' : ℂ} {s : ℝ} (hf : HasDerivAt f f' s) :
    HasDerivAt (fun s => P.eval (f s)) ((derivative P).eval (f s) * f') s :=
  (P.hasDerivAt (f s)).comp s hf

theorem hasDerivAt_envG_s (w b : ℝ) (p a : ℕ) (s z : ℝ) : HasDerivAt (fun s => envG w b p a s z) (envGs w b p a s z) s := by
  simp only [envG_eq]
  refine ((hasDerivAt_envF_s w b p a s z).mul
    (hasDerivAt_poly_comp (lagPoly p a) (hasDerivAt_envArg_s w b s z))).congr_deriv ?_
  simp only [envGs]; ring

theorem hasDerivAt_envGs_s (w b : ℝ) (p a : ℕ) (s z : ℝ) : HasDerivAt (fun s => envGs w b p a s z) (envGss w b p a s z) s := by
  unfold envGs
  refine ((hasDerivAt_envF_s w b p a s z).mul
    (((hasDerivAt_poly_comp (derivative (lagPoly p a)) (hasDerivAt_envArg_s w b s z)).mul_const _).sub
      ((hasDerivAt_poly_comp (lagPoly p a) (hasDerivAt_envArg_s w b s z)).mul_const _))).congr_deriv ?_
  simp only [envGss, Pi.sub_apply]; ring

theorem hasDerivAt_cp (b z : ℝ) : HasDerivAt (fun z : ℝ => (1 + I * ((z : ℂ) / b))) (I / b) z := by
  have h : HasDerivAt (fun s : ℝ => (s : ℂ)) 1 z := Complex.ofRealCLM.hasDerivAt
  refine (((h.div_const (b : ℂ)).const_mul I).const_add 1).congr_deriv ?_
  ring

theorem hasDerivAt_cm (b z : ℝ) : HasDerivAt (fun z : ℝ => (1 - I * ((z : ℂ) / b))) (-(I / b)) z := by
  have h : HasDerivAt (fun s : ℝ => (s : ℂ)) 1 z := Complex.ofRealCLM.hasDerivAt
  refine (((h.div_const (b : ℂ)).const_mul I).const_sub 1).congr_deriv ?_
  ring

theorem hasDerivAt_envArg_z {w b : ℝ} (hw : w ≠ 0) (hb : b ≠ 0) (s z : ℝ) :
    HasDerivAt (fun z => envArg w b s z)
      (-(2 * s / w ^ 2) * (2 * z / b ^ 2) / ((1 + I * (z / b)) * (1 - I * (z / b))) ^ 2) z := by
  unfold envArg
  have hw' : (w : ℂ) ≠ 0 := by exact_mod_cast hw
  have hb' : (b : ℂ) ≠ 0 := by exact_mod_cast hb
  have h1 : (1 + I * ((z : ℂ) / b)) ≠ 0 := by simpa using cp_ne (z / b)
  have h2 : (1 - I * ((z : ℂ) / b)) ≠ 0 := by simpa using cm_ne (z / b)
  have h := ((hasDerivAt_cp b z).mul (hasDerivAt_cm b z)).const_mul ((w : ℂ) ^ 2)
  refine ((hasDerivAt_const z (2 * (s : ℂ))).div h (by simp only [Pi.mul_apply]; exact mul_ne_zero (pow_ne_zero 2 hw') (mul_ne_zero h1 h2))).congr_deriv ?_
  simp only [Pi.mul_apply]
  generalize hcp : (1 + I * ((z : ℂ) / b)) = cp at *
  generalize hcm : (1 - I * ((z : ℂ) / b)) = cm at *
  have e : I / b * cm + cp * -(I / b) = 2 * z / b ^ 2 := by
    rw [← hcp, ← hcm]; field_simp; linear_combination (-2 * (z : ℂ)) * I_sq
  rw [e]
  field_simp
  ring

theorem hasDerivAt_envF_z {w b : ℝ} (hw : w ≠ 0) (p a : ℕ) (s z : ℝ) :
    HasDerivAt (fun z => envF w b p a s z) (envF w b p a s z * (-(a + 1) * (I / b) / (1 + I * (z / b)) +
      p * (-(I / b) / (1 - I * (z / b)) - (I / b) / (1 + I * (z / b))) + s / (w ^ 2 * (1 + I * (z / b)) ^ 2) * (I / b))) z := by
  unfold envF
  have hw' : (w : ℂ) ≠ 0 := by exact_mod_cast hw
  have h1 : (1 + I * ((z : ℂ) / b)) ≠ 0 := by simpa using cp_ne (z / b)
  have h2 : (1 - I * ((z : ℂ) / b)) ≠ 0 := by simpa using cm_ne (z / b)
  have d1 := (hasDerivAt_cp b z).inv h1
  have d2 := ((hasDerivAt_cm b z).mul d1).pow p
  have d3 := ((hasDerivAt_const z (-(s : ℂ))).div ((hasDerivAt_cp b z).const_mul ((w : ℂ) ^ 2)) (mul_ne_zero (pow_ne_zero 2 hw') h1)).cexp
  refine (((d1.pow (a + 1)).mul d2).mul d3).congr_deriv ?_
  simp only [Pi.mul_apply, Pi.pow_apply, Pi.inv_apply, Pi.div_apply]
  generalize hcp : (1 + I * ((z : ℂ) / b)) = cp at *
  generalize hcm : (1 - I * ((z : ℂ) / b)) = cm at *
  rw [pow_pred_mul p (cm * cp⁻¹) (mul_ne_zero h2 (inv_ne_zero h1)), Nat.add_sub_cancel]
  simp only [pow_succ cp⁻¹ a]
  generalize (cm * cp⁻¹) ^ p = Q
  generalize cp⁻¹ ^ a = R
  push_cast
  generalize exp _ = E
  generalize I / (b : ℂ) = J
  field_simp
  ring

theorem hasDerivAt_envG_z {w b : ℝ} (hw : w ≠ 0) (hb : b ≠ 0) (p a : ℕ) (s z : ℝ) :
    HasDerivAt (fun z => envG w b p a s z) (envGz w b p a s z) z := by
  simp only [envG_eq]
  refine ((hasDerivAt_envF_z hw p a s z).mul
    (hasDerivAt_poly_comp (lagPoly p a) (hasDerivAt_envArg_z hw hb s z))).congr_deriv ?_
  simp only [envGz]; ring

/-- The equation in `s` and `z`. -/
theorem envG_pde {w b : ℝ} (hw : w ≠ 0) (hb : b ≠ 0) (p a : ℕ) (s z : ℝ) :
    4 * s * envGss w b p a s z + 4 * (a + 1) * envGs w b p a s z + 2 * I * (2 * b / w ^ 2) * envGz w b p a s z = 0 := by
  have ode := lag_ode_eval p a (envArg w b s z)
  simp only [envGss, envGs, envGz]
  generalize (lagPoly p a).eval (envArg w b s z) = P0 at *
  generalize (derivative (lagPoly p a)).eval (envArg w b s z) = P1 at *
  generalize (derivative (derivative (lagPoly p a))).eval (envArg w b s z) = P2 at *
  generalize envF w b p a s z = F
  unfold envArg at ode
  have hw' : (w : ℂ) ≠ 0 := by exact_mod_cast hw
  have hb' : (b : ℂ) ≠ 0 := by exact_mod_cast hb
  have h1 : (1 + I * ((z : ℂ) / b)) ≠ 0 := by simpa using cp_ne (z / b)
  have h2 : (1 - I * ((z : ℂ) / b)) ≠ 0 := by simpa using cm_ne (z / b)
  have hz : (z : ℂ) = b * ((1 + I * ((z : ℂ) / b)) - (1 - I * ((z : ℂ) / b))) / (2 * I) := by
    field_simp [I_ne_zero]; ring
  have hs : (1 + I * ((z : ℂ) / b)) + (1 - I * ((z : ℂ) / b)) = 2 := by ring
  generalize hcp : (1 + I * ((z : ℂ) / b)) = cp at *
  generalize hcm : (1 - I * ((z : ℂ) / b)) = cm at *
  have hJ : I / (b : ℂ) ≠ 0 := div_ne_zero I_ne_zero hb'
  have e1 : 2 * (z : ℂ) / b ^ 2 = -(cp - cm) * (I / b) := by
    rw [hz]; field_simp; linear_combination (cp - cm) * I_sq
  have e2 : 2 * I * (2 * b / (w : ℂ) ^ 2) = -4 / (I / b * w ^ 2) := by
    field_simp; linear_combination 4 * I_sq
  rw [e1, e2]
  clear hz hcp hcm e1 e2
  generalize I / (b : ℂ) = J at *
  obtain rfl : cm = 2 - cp := by linear_combination hs
  refine Eq.trans ?_ ((congrArg (8 * F / (w ^ 2 * cp * (2 - cp)) * ·) ode).trans (mul_zero _))
  field_simp
  ring

/-! ### Cartesian coordinates -/

/-- The envelope: vortex factor, `(y + σ i x) ^ a`, times a function of `x² + y²` and `z`. -/
noncomputable def envU (K : ℂ) (σ : ℝ) (w b : ℝ) (p a : ℕ) (x y z : ℝ) : ℂ :=
  K * (y + σ * I * x) ^ a * envG w b p a (x ^ 2 + y ^ 2) z

theorem hasDerivAt_sq_x (f : ℝ → ℂ) (f' : ℂ) (x y : ℝ) (h : HasDerivAt f f' (x ^ 2 + y ^ 2)) :
    HasDerivAt (fun x => f (x ^ 2 + y ^ 2)) (f' * (2 * x)) x := by
  have h1 : HasDerivAt (fun x : ℝ => x ^ 2 + y ^ 2) (2 * x) x := by
    simpa using ((hasDerivAt_id x).pow 2).add_const (y ^ 2)
  have := HasDerivAt.scomp x h h1
  refine this.congr_deriv ?_
  rw [real_smul]; push_cast; ring

theorem hasDerivAt_sq_y (f : ℝ → ℂ) (f' : ℂ) (x y : ℝ) (h : HasDerivAt f f' (x ^ 2 + y ^ 2)) :
    HasDerivAt (fun y => f (x ^ 2 + y ^ 2)) (f' * (2 * y)) y := by
  have h1 : HasDerivAt (fun y : ℝ => x ^ 2 + y ^ 2) (2 * y) y := by
    simpa using ((hasDerivAt_id y).pow 2).const_add (x ^ 2)
  have := HasDerivAt.scomp y h h1
  refine this.congr_deriv ?_
  rw [real_smul]; push_cast; ring

theorem hasDerivAt_vortex_x (σ : ℝ) (a : ℕ) (x y : ℝ) :
    HasDerivAt (fun x : ℝ => ((y : ℂ) + σ * I * x) ^ a) (a * (y + σ * I * x) ^ (a - 1) * (σ * I)) x := by
  have h : HasDerivAt (fun s : ℝ => (s : ℂ)) 1 x := Complex.ofRealCLM.hasDerivAt
  refine (((h.const_mul ((σ : ℂ) * I)).const_add (y : ℂ)).pow a).congr_deriv ?_
  ring

theorem hasDerivAt_vortex_y (σ : ℝ) (a : ℕ) (x y : ℝ) :
    HasDerivAt (fun y : ℝ => ((y : ℂ) + σ * I * x) ^ a) (a * (y + σ * I * x) ^ (a - 1)) y := by
  have h : HasDerivAt (fun s : ℝ => (s : ℂ)) 1 y := Complex.ofRealCLM.hasDerivAt
  refine ((h.add_const ((σ : ℂ) * I * x)).pow a).congr_deriv ?_
  ring

theorem envU_paraxial {w b σ : ℝ} (hw : w ≠ 0) (hb : b ≠ 0) (hσ : σ ^ 2 = 1) (K : ℂ) (p a : ℕ) :
    ParaxialEnvelope (2 * b / w ^ 2) (envU K σ w b p a) := by
  refine ⟨
    fun x y z => K * (a * (y + σ * I * x) ^ (a - 1) * (σ * I)) * envG w b p a (x ^ 2 + y ^ 2) z +
      K * (y + σ * I * x) ^ a * (envGs w b p a (x ^ 2 + y ^ 2) z * (2 * x)),
    fun x y z => K * (a * (((a - 1 : ℕ) : ℂ) * (y + σ * I * x) ^ (a - 1 - 1) * (σ * I)) * (σ * I)) * envG w b p a (x ^ 2 + y ^ 2) z +
      K * (a * (y + σ * I * x) ^ (a - 1) * (σ * I)) * (envGs w b p a (x ^ 2 + y ^ 2) z * (2 * x)) +
      (K * (a * (y + σ * I * x) ^ (a - 1) * (σ * I)) * (envGs w b p a (x ^ 2 + y ^ 2) z * (2 * x)) +
       K * (y + σ * I * x) ^ a * (envGss w b p a (x ^ 2 + y ^ 2) z * (2 * x) * (2 * x) + envGs w b p a (x ^ 2 + y ^ 2) z * 2)),
    fun x y z => K * (a * (y + σ * I * x) ^ (a - 1)) * envG w b p a (x ^ 2 + y ^ 2) z +
      K * (y + σ * I * x) ^ a * (envGs w b p a (x ^ 2 + y ^ 2) z * (2 * y)),
    fun x y z => K * (a * (((a - 1 : ℕ) : ℂ) * (y + σ * I * x) ^ (a - 1 - 1))) * envG w b p a (x ^ 2 + y ^ 2) z +
      K * (a * (y + σ * I * x) ^ (a - 1)) * (envGs w b p a (x ^ 2 + y ^ 2) z * (2 * y)) +
      (K * (a * (y + σ * I * x) ^ (a - 1)) * (envGs w b p a (x ^ 2 + y ^ 2) z * (2 * y)) +
       K * (y + σ * I * x) ^ a * (envGss w b p a (x ^ 2 + y ^ 2) z * (2 * y) * (2 * y) + envGs w b p a (x ^ 2 + y ^ 2) z * 2)),
    fun x y z => K * (y + σ * I * x) ^ a * envGz w b p a (x ^ 2 + y ^ 2) z, fun x y z => ⟨?_, ?_, ?_, ?_, ?_, ?_⟩⟩
  · exact ((hasDerivAt_vortex_x σ a x y).const_mul K).mul
      (hasDerivAt_sq_x _ _ x y (hasDerivAt_envG_s w b p a (x ^ 2 + y ^ 2) z))
  · have hx : HasDerivAt (fun x : ℝ => 2 * (x : ℂ)) 2 x := by
      simpa using (Complex.ofRealCLM.hasDerivAt (x := x)).const_mul (2 : ℂ)
    exact (((((hasDerivAt_vortex_x σ (a - 1) x y).const_mul (a : ℂ)).mul_const ((σ : ℂ) * I)).const_mul K).mul
        (hasDerivAt_sq_x _ _ x y (hasDerivAt_envG_s w b p a (x ^ 2 + y ^ 2) z))).add
      (((hasDerivAt_vortex_x σ a x y).const_mul K).mul
        ((hasDerivAt_sq_x _ _ x y (hasDerivAt_envGs_s w b p a (x ^ 2 + y ^ 2) z)).mul hx))
  · exact ((hasDerivAt_vortex_y σ a x y).const_mul K).mul
      (hasDerivAt_sq_y _ _ x y (hasDerivAt_envG_s w b p a (x ^ 2 + y ^ 2) z))
  · have hy : HasDerivAt (fun y : ℝ => 2 * (y : ℂ)) 2 y := by
      simpa using (Complex.ofRealCLM.hasDerivAt (x := y)).const_mul (2 : ℂ)
    exact ((((hasDerivAt_vortex_y σ (a - 1) x y).const_mul (a : ℂ)).const_mul K).mul
        (hasDerivAt_sq_y _ _ x y (hasDerivAt_envG_s w b p a (x ^ 2 + y ^ 2) z))).add
      (((hasDerivAt_vortex_y σ a x y).const_mul K).mul
        ((hasDerivAt_sq_y _ _ x y (hasDerivAt_envGs_s w b p a (x ^ 2 + y ^ 2) z)).mul hy))
  · exact (hasDerivAt_envG_z hw hb p a (x ^ 2 + y ^ 2) z).const_mul _
  · have pde := envG_pde hw hb p a (x ^ 2 + y ^ 2) z
    push_cast at pde ⊢
    have h1 : (a : ℂ) * (y + σ * I * x) ^ (a - 1) * (y + σ * I * x) = a * (y + σ * I * x) ^ a := by
      rcases a with - | a
      · simp
      · rw [Nat.add_sub_cancel, pow_succ]; ring
    have h2 : ((σ : ℂ) * I) * (σ * I) = -1 := by
      have : (σ : ℂ) ^ 2 = 1 := by exact_mod_cast hσ
      linear_combination (σ : ℂ) ^ 2 * I_sq - this
    generalize envG w b p a (x ^ 2 + y ^ 2) z = G at *
    generalize envGs w b p a (x ^ 2 + y ^ 2) z = Gs at *
    generalize envGss w b p a (x ^ 2 + y ^ 2) z = Gss at *
    generalize envGz w b p a (x ^ 2 + y ^ 2) z = Gz at *
    generalize ((y : ℂ) + σ * I * x) ^ (a - 1 - 1) = V2 at *
    generalize ((y : ℂ) + σ * I * x) ^ (a - 1) = V1 at *
    generalize ((y : ℂ) + σ * I * x) ^ a = V0 at *
    linear_combination K * V0 * pde + K * 4 * Gs * h1 + K * a * ((a - 1 : ℕ) : ℂ) * V2 * G * h2

/-! ### The fields of the code -/

theorem cis_neg_arctan (t : ℝ) : exp (-(I * (Real.arctan t : ℂ))) = (1 - I * t) / (Real.sqrt (1 + t ^ 2) : ℝ) := by
  have h : -(I * (Real.arctan t : ℂ)) = ((-Real.arctan t : ℝ) : ℂ) * I := by push_cast; ring
  rw [h, exp_mul_I, ← ofReal_cos, ← ofReal_sin, Real.cos_neg, Real.sin_neg, Real.cos_arctan, Real.sin_arctan]
  push_cast
  ring

/-- `ρ^|l| exp(-i l φ)` with `φ = arctan2(x, y)`. -/
theorem vortex_eq (l : ℤ) (x y : ℝ) :
    ((Real.sqrt (x ^ 2 + y ^ 2) : ℝ) : ℂ) ^ l.natAbs * exp (-I * l * (Complex.arg (⟨y, x⟩ : ℂ) : ℂ)) =
      (y + ((if 0 ≤ l then -1 else 1 : ℝ) : ℂ) * I * x) ^ l.natAbs := by
  set v : ℂ := ⟨y, x⟩ with hv
  have hn : ((Real.sqrt (x ^ 2 + y ^ 2) : ℝ) : ℂ) = (‖v‖ : ℂ) := by
    congr 1
    rw [Complex.norm_eq_sqrt_sq_add_sq, add_comm]
  have hw : (‖v‖ : ℂ) * exp (v.arg * I) = v := norm_mul_exp_arg_mul_I v
  have hc : (‖v‖ : ℂ) * exp (-(v.arg * I)) = (starRingEnd ℂ) v := by
    conv_rhs => rw [← hw]
    rw [map_mul, conj_ofReal, ← exp_conj, map_mul, conj_ofReal, conj_I, mul_neg]
  rw [hn]
  split_ifs with h
  · obtain ⟨k, rfl⟩ := Int.eq_ofNat_of_zero_le h
    have : exp (-I * ((k : ℤ) : ℂ) * (v.arg : ℂ)) = exp (-(v.arg * I)) ^ k := by
      rw [← Complex.exp_nat_mul]; congr 1; push_cast; ring
    rw [this, Int.natAbs_natCast, ← mul_pow, hc]
    congr 1
    apply Complex.ext <;> simp [hv]
  · obtain ⟨k, hk⟩ := Int.eq_ofNat_of_zero_le (by omega : 0 ≤ -l)
    obtain rfl : l = -(k : ℤ) := by omega
    have : exp (-I * ((-(k : ℤ) : ℤ) : ℂ) * (v.arg : ℂ)) = exp (v.arg * I) ^ k := by
      rw [← Complex.exp_nat_mul]; congr 1; push_cast; ring
    rw [this, Int.natAbs_neg, Int.natAbs_natCast, ← mul_pow, hw]
    congr 1
    apply Complex.ext <;> simp [hv]

/-- In vacuum the envelope of a Laguerre-Gauss beam has the closed form above. -/
theorem laguerre_env {wl w : ℝ} (hl : wl ≠ 0) (hw : w ≠ 0) (p : ℕ) (l : ℤ) (x y z : ℝ) :
    (laguerreField wl w 1 p l ![x, y, z]).1 0 * exp (-(I * ((2 * Real.pi / wl : ℝ) * z))) =
      envU ((Real.sqrt 2 / w : ℝ) ^ l.natAbs) (if 0 ≤ l then -1 else 1) w (Real.pi * w ^ 2 / wl) p l.natAbs x y z := by
  have hb : Real.pi * w ^ 2 / wl ≠ 0 := div_ne_zero (mul_ne_zero Real.pi_ne_zero (pow_ne_zero 2 hw)) hl
  simp only [laguerreField, envU, envG, Matrix.cons_val_zero, Matrix.cons_val_one, Matrix.cons_val, Real.sqrt_one, mul_one]
  set b := Real.pi * w ^ 2 / wl with hbd
  set a := l.natAbs
  set ρ := Real.sqrt (x ^ 2 + y ^ 2) with hρ
  have hρ2 : ρ ^ 2 = x ^ 2 + y ^ 2 := Real.sq_sqrt (by positivity)
  set S := Real.sqrt (1 + (z / b) ^ 2) with hS
  have hS0 : S ≠ 0 := (Real.sqrt_pos.2 (by positivity)).ne'
  have hS2 : S ^ 2 = 1 + (z / b) ^ 2 := Real.sq_sqrt (by positivity)
  have hk : 2 * Real.pi / wl = 2 * b / w ^ 2 := by rw [hbd]; field_simp
  have hS0' : (S : ℂ) ≠ 0 := by exact_mod_cast hS0
  have hw' : (w : ℂ) ≠ 0 := by exact_mod_cast hw
  have hb' : (b : ℂ) ≠ 0 := by exact_mod_cast hb
  have h1 : (1 + I * ((z : ℂ) / b)) ≠ 0 := by simpa using cp_ne (z / b)
  have h2 : (1 - I * ((z : ℂ) / b)) ≠ 0 := by simpa using cm_ne (z / b)
  have hSc : (S : ℂ) ^ 2 = (1 + I * ((z : ℂ) / b)) * (1 - I * ((z : ℂ) / b)) := by
    have : (S : ℂ) ^ 2 = 1 + ((z : ℂ) / b) ^ 2 := by exact_mod_cast hS2
    rw [this]; linear_combination ((z : ℂ) / b) ^ 2 * I_sq
  -- the Laguerre polynomial
  have hL : ((genLaguerre p a (2 * ρ ^ 2 / (w * S) ^ 2) : ℝ) : ℂ) =
      (lagPoly p a).eval (2 * ((x ^ 2 + y ^ 2 : ℝ) : ℂ) / (w ^ 2 * ((1 + I * (z / b)) * (1 - I * (z / b))))) := by
    rw [← lagPoly_eval]
    congr 1
    rw [← hSc, ← hρ2]
    push_cast
    ring
  -- the phases
  have hE : ((Real.exp (-(ρ ^ 2) / (w * S) ^ 2) : ℝ) : ℂ) *
      exp (I * ((2 * Real.pi / wl * z + 2 * Real.pi / wl * ρ ^ 2 / 2 * z / (z ^ 2 + b ^ 2) -
        (((a + 2 * p : ℕ) : ℝ) + 1) * Real.arctan (z / b) : ℝ) : ℂ)) * exp (-(I * ((2 * Real.pi / wl : ℝ) * z))) =
      exp (-((x ^ 2 + y ^ 2 : ℝ) : ℂ) / (w ^ 2 * (1 + I * (z / b)))) * ((1 - I * (z / b)) / S) ^ (a + 2 * p + 1) := by
    have hg : ((1 - I * ((z : ℂ) / b)) / S) ^ (a + 2 * p + 1) =
        exp (((a + 2 * p + 1 : ℕ) : ℂ) * -(I * (Real.arctan (z / b) : ℂ))) := by
      rw [Complex.exp_nat_mul, cis_neg_arctan, hS]; push_cast; rfl
    rw [hg, ofReal_exp, ← Complex.exp_add, ← Complex.exp_add, ← Complex.exp_add]
    congr 1
    rw [hk, ← hρ2]
    have hzb : ((z : ℂ) ^ 2 + b ^ 2) = b ^ 2 * S ^ 2 := by
      have : (S : ℂ) ^ 2 = 1 + ((z : ℂ) / b) ^ 2 := by exact_mod_cast hS2
      rw [this]; field_simp; ring
    push_cast
    rw [hzb]
    have e : -((ρ : ℂ) ^ 2) / (w ^ 2 * (1 + I * (z / b))) = -((ρ : ℂ) ^ 2) / (w * S) ^ 2 * (1 - I * (z / b)) := by
      rw [mul_pow, hSc]
      generalize (1 + I * ((z : ℂ) / b)) = cp at *
      generalize (1 - I * ((z : ℂ) / b)) = cm at *
      field_simp
    rw [e]
    field_simp
    ring
  have hV := vortex_eq l x y
  rw [← hρ] at hV
  rw [hL.symm, ← hV]
  have hwS : (w : ℂ) / (w * S) = 1 / S := by field_simp
  have hq : (1 + I * ((z : ℂ) / b))⁻¹ = (1 - I * (z / b)) / S ^ 2 := by
    rw [hSc]
    clear hE hL
    generalize (1 + I * ((z : ℂ) / b)) = cp at *
    generalize (1 - I * ((z : ℂ) / b)) = cm at *
    field_simp
  have hfin : (1 + I * ((z : ℂ) / b))⁻¹ ^ (a + 1) * ((1 - I * (z / b)) * (1 + I * (z / b))⁻¹) ^ p =
      1 / S * (1 / S) ^ a * ((1 - I * (z / b)) / S) ^ (a + 2 * p + 1) := by
    rw [hq]
    generalize (1 - I * ((z : ℂ) / b)) = cm
    have : cm * (cm / (S : ℂ) ^ 2) = (cm / S) ^ 2 := by rw [div_pow]; ring
    rw [this, ← pow_mul, show a + 2 * p + 1 = (a + 1) + 2 * p by ring, pow_add (cm / S), ← mul_assoc, ← pow_succ',
      ← mul_pow]
    congr 2
    field_simp
  push_cast at hE ⊢
  rw [hwS]
  have hr : ((ρ : ℂ) * (Real.sqrt 2 : ℝ) / (w * S)) ^ a = (ρ : ℂ) ^ a * ((Real.sqrt 2 : ℝ) / w) ^ a * (1 / S) ^ a := by
    rw [← mul_pow, ← mul_pow]; congr 1; field_simp
  rw [hr]
  linear_combination (1 / (S : ℂ) * ((ρ : ℂ) ^ a * ((Real.sqrt 2 : ℝ) / w) ^ a * (1 / S) ^ a) *
    (genLaguerre p a (2 * ρ ^ 2 / (w * S) ^ 2) : ℂ) * exp (-I * l * (Complex.arg (⟨y, x⟩ : ℂ) : ℂ))) * hE -
    ((Real.sqrt 2 : ℝ) / w) ^ a * ((ρ : ℂ) ^ a * exp (-I * l * (Complex.arg (⟨y, x⟩ : ℂ) : ℂ))) *
    (genLaguerre p a (2 * ρ ^ 2 / (w * S) ^ 2) : ℂ) * exp (-((x : ℂ) ^ 2 + y ^ 2) / (w ^ 2 * (1 + I * (z / b)))) * hfin

/-- A Laguerre-Gauss beam without vortex or rings is the Gaussian beam. -/
theorem laguerre_zero (wl w er : ℝ) (r : Fin 3 → ℝ) : laguerreField wl w er 0 0 r = gaussianField wl w er r := by
  simp [laguerreField, gaussianField, genLaguerre]

/-- The modulus of a beam away from its waist. -/
theorem laguerre_norm {wl w er : ℝ} (hw : w ≠ 0) (p : ℕ) (l : ℤ) (x y z S : ℝ)
    (hS : S = Real.sqrt (1 + (z / (Real.pi * w ^ 2 * Real.sqrt er / wl)) ^ 2)) :
    ‖(laguerreField wl w er p l ![x, y, z]).1 0‖ = S⁻¹ * ‖(laguerreField wl w er p l ![S⁻¹ * x, S⁻¹ * y, 0]).1 0‖ := by
  have hS0 : 0 < S := hS ▸ Real.sqrt_pos.2 (by positivity)
  simp only [laguerreField, Matrix.cons_val_zero, Matrix.cons_val_one, Matrix.cons_val, norm_mul, ← hS]
  have n1 : ∀ t : ℝ, ‖exp (I * (t : ℂ))‖ = 1 := fun t => by rw [mul_comm]; exact Complex.norm_exp_ofReal_mul_I t
  have n2 : ∀ t : ℝ, ‖exp (-I * (l : ℂ) * (t : ℂ))‖ = 1 := fun t => by
    rw [show -I * (l : ℂ) * (t : ℂ) = ((-(l : ℝ) * t : ℝ) : ℂ) * I by push_cast; ring]
    exact Complex.norm_exp_ofReal_mul_I _
  rw [n1, n1, n2, n2]
  have hr : Real.sqrt ((S⁻¹ * x) ^ 2 + (S⁻¹ * y) ^ 2) = S⁻¹ * Real.sqrt (x ^ 2 + y ^ 2) := by
    rw [show (S⁻¹ * x) ^ 2 + (S⁻¹ * y) ^ 2 = S⁻¹ ^ 2 * (x ^ 2 + y ^ 2) by ring, Real.sqrt_mul (by positivity),
      Real.sqrt_sq (by positivity)]
  rw [hr]
  generalize Real.sqrt (x ^ 2 + y ^ 2) = ρ
  simp only [zero_div, ne_eq, OfNat.ofNat_ne_zero, not_false_eq_true, zero_pow, add_zero, Real.sqrt_one, mul_one]
  rw [div_self hw, one_mul, Complex.norm_real, Complex.norm_real, Real.norm_eq_abs, Real.norm_eq_abs]
  have e1 : w / (w * S) = S⁻¹ := by field_simp
  have e2 : ρ * Real.sqrt 2 / (w * S) = S⁻¹ * ρ * Real.sqrt 2 / w := by field_simp
  have e3 : -ρ ^ 2 / (w * S) ^ 2 = -(S⁻¹ * ρ) ^ 2 / w ^ 2 := by field_simp
  have e4 : 2 * ρ ^ 2 / (w * S) ^ 2 = 2 * (S⁻¹ * ρ) ^ 2 / w ^ 2 := by field_simp
  rw [e1, e2, e3, e4, mul_assoc, mul_assoc, abs_mul, abs_of_pos (inv_pos.2 hS0), ← mul_assoc]

open MeasureTheory in
/-- Scaling the plane. -/
theorem lintegral_plane_scale {f : ℝ × ℝ → ENNReal} {R : ℝ} (hR : R ≠ 0) :
    ∫⁻ q : ℝ × ℝ, f (R • q) = ENNReal.ofReal (R ^ 2)⁻¹ * ∫⁻ q, f q := by
  have h := Measure.map_addHaar_smul (volume : Measure (ℝ × ℝ)) hR
  have hm := (Homeomorph.smulOfNeZero (α := ℝ × ℝ) R hR).measurableEmbedding
  have := hm.lintegral_map (μ := volume) f
  have h2 : (⇑(Homeomorph.smulOfNeZero R hR) : ℝ × ℝ → ℝ × ℝ) = fun q => R • q := rfl
  rw [h2] at this
  have h3 : (fun q : ℝ × ℝ => R • q) = (R • · ) := rfl
  rw [h3, h, lintegral_smul_measure] at this
  rw [← this]
  simp [abs_of_nonneg, sq_nonneg]

/-- The Gaussian beam in its focal plane. -/
theorem gaussian_focus {wl w er : ℝ} (hw : w ≠ 0) (x y : ℝ) :
    (gaussianField wl w er ![x, y, 0]).1 0 = (Real.exp (-(x ^ 2 + y ^ 2) / w ^ 2) : ℝ) := by
  have h : Real.sqrt (x ^ 2 + y ^ 2) ^ 2 = x ^ 2 + y ^ 2 := Real.sq_sqrt (by positivity)
  simp [gaussianField, h, div_self hw]

/-- The Gaussian beam on its axis. -/
theorem gaussian_axis {wl w er : ℝ} (hw : w ≠ 0) (z : ℝ) :
    (gaussianField wl w er ![0, 0, z]).1 0 =
      ((Real.sqrt (1 + (z / (Real.pi * w ^ 2 * Real.sqrt er / wl)) ^ 2))⁻¹ : ℝ) *
        exp (I * ((2 * Real.pi / wl * z - Real.arctan (z / (Real.pi * w ^ 2 * Real.sqrt er / wl)) : ℝ) : ℂ)) := by
  have e (S : ℝ) : w / (w * S) = S⁻¹ := by rw [← div_div, div_self hw, one_div]
  simp [gaussianField, e]

theorem hasDerivAt_focus (w x : ℝ) : HasDerivAt (fun t : ℝ => ((Real.exp (-(t ^ 2) / w ^ 2) : ℝ) : ℂ))
    (((-(2 * x) / w ^ 2) * Real.exp (-(x ^ 2) / w ^ 2) : ℝ) : ℂ) x := by
  have h : HasDerivAt (fun t : ℝ => Real.exp (-(t ^ 2) / w ^ 2)) ((-(2 * x) / w ^ 2) * Real.exp (-(x ^ 2) / w ^ 2)) x := by
    have h1 : HasDerivAt (fun t : ℝ => -(t ^ 2) / w ^ 2) (-(2 * x) / w ^ 2) x := by
      simpa using (((hasDerivAt_id x).pow 2).neg).div_const (w ^ 2)
    exact h1.exp.congr_deriv (mul_comm _ _)
  exact h.ofReal_comp

theorem hasDerivAt_focus2 (w : ℝ) : HasDerivAt (fun x : ℝ => (((-(2 * x) / w ^ 2) * Real.exp (-(x ^ 2) / w ^ 2) : ℝ) : ℂ))
    ((-(2 / w ^ 2) : ℝ) : ℂ) 0 := by
  have h1 : HasDerivAt (fun t : ℝ => -(2 * t) / w ^ 2) (-2 / w ^ 2) 0 := by
    simpa using (((hasDerivAt_id (0 : ℝ)).const_mul 2).neg).div_const (w ^ 2)
  have h2 : HasDerivAt (fun t : ℝ => Real.exp (-(t ^ 2) / w ^ 2)) 0 0 := by
    have h3 : HasDerivAt (fun t : ℝ => -(t ^ 2) / w ^ 2) 0 0 := by
      simpa using (((hasDerivAt_id (0 : ℝ)).pow 2).neg).div_const (w ^ 2)
    simpa using h3.exp
  have := (h1.mul h2).ofReal_comp
  refine this.congr_deriv ?_
  simp [neg_div]

theorem hasDerivAt_axis (b k K : ℝ) : HasDerivAt (fun z : ℝ => (((Real.sqrt (1 + (z / b) ^ 2))⁻¹ : ℝ) : ℂ) *
    exp (I * ((k * z - Real.arctan (z / b) : ℝ) : ℂ)) * exp (-(I * (K * z)))) (I * (k - 1 / b - K)) 0 := by
  have hz : HasDerivAt (fun z : ℝ => z / b) (1 / b) 0 := (hasDerivAt_id (0 : ℝ)).div_const b
  have h1 : HasDerivAt (fun z : ℝ => (Real.sqrt (1 + (z / b) ^ 2))⁻¹) 0 0 := by
    have h2 : HasDerivAt (fun z : ℝ => 1 + (z / b) ^ 2) 0 0 := by
      simpa using (hz.pow 2).const_add 1
    have h3 := h2.sqrt (by simp)
    refine (h3.inv (by simp)).congr_deriv ?_
    simp
  have h4 : HasDerivAt (fun z : ℝ => k * z - Real.arctan (z / b)) (k - 1 / b) 0 := by
    refine (((hasDerivAt_id (0 : ℝ)).const_mul k).sub hz.arctan).congr_deriv ?_
    simp
  have h5 : HasDerivAt (fun z : ℝ => exp (I * ((k * z - Real.arctan (z / b) : ℝ) : ℂ))) (I * (k - 1 / b)) 0 := by
    have := (h4.ofReal_comp.const_mul I).cexp
    simpa using this
  have h6 : HasDerivAt (fun z : ℝ => exp (-(I * ((K : ℂ) * z)))) (-(I * K)) 0 := by
    have h : HasDerivAt (fun s : ℝ => (s : ℂ)) 1 0 := Complex.ofRealCLM.hasDerivAt
    have := ((h.const_mul (K : ℂ)).const_mul I).neg.cexp
    simpa using this
  have := (h1.ofReal_comp.mul h5).mul h6
  refine this.congr_deriv ?_
  simp only [Pi.mul_apply, zero_div, ne_eq, OfNat.ofNat_ne_zero, not_false_eq_true, zero_pow, add_zero, Real.sqrt_one, inv_one,
    mul_zero, Real.arctan_zero, sub_zero, ofReal_zero, Complex.exp_zero, ofReal_one, neg_zero, zero_mul, zero_add]
  ring

end Khepri
