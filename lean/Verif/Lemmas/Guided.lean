import Verif.Lemmas.Passive
import Verif.Lemmas.ExampleEmpty
set_option linter.unusedSectionVars false

/-!
A slab which guides light in vacuum: one order, `kx = √2`, `ky = 0`, permittivity 3. In the slab the order propagates
along z with `kz = 1`; in vacuum it is evanescent with `kz = -i`. At a quarter wave the slab has a guided mode.
-/

namespace Khepri
open Matrix

/-- Diagonal two by two matrix over the two polarisations of one order. -/
def dg (a b : ℂ) : Matrix (Fin 1 ⊕ Fin 1) (Fin 1 ⊕ Fin 1) ℂ := fromBlocks (a • 1) 0 0 (b • 1)
/-- Antidiagonal one. -/
def ad (a b : ℂ) : Matrix (Fin 1 ⊕ Fin 1) (Fin 1 ⊕ Fin 1) ℂ := fromBlocks 0 (a • 1) (b • 1) 0

theorem dg_mul (a b c d : ℂ) : dg a b * dg c d = dg (a * c) (b * d) := by
  simp [dg, fromBlocks_multiply, smul_smul, mul_comm]
theorem ad_mul (a b c d : ℂ) : ad a b * ad c d = dg (a * d) (b * c) := by
  simp [dg, ad, fromBlocks_multiply, smul_smul, mul_comm]
theorem dg_add (a b c d : ℂ) : dg a b + dg c d = dg (a + c) (b + d) := by
  simp [dg, fromBlocks_add, add_smul]
theorem dg_sub (a b c d : ℂ) : dg a b - dg c d = dg (a - c) (b - d) := by
  simp only [dg, sub_eq_add_neg, fromBlocks_neg, fromBlocks_add, add_smul, neg_smul, neg_zero, add_zero]
theorem dg_one : dg 1 1 = 1 := by simp [dg]
theorem dg_det (a b : ℂ) : (dg a b).det = a * b := by
  simp [dg, det_fromBlocks_zero₂₁]
theorem dg_inv {a b : ℂ} (ha : a ≠ 0) (hb : b ≠ 0) : (dg a b)⁻¹ = dg a⁻¹ b⁻¹ :=
  inv_eq_right_inv (by rw [dg_mul, mul_inv_cancel₀ ha, mul_inv_cancel₀ hb, dg_one])
theorem ad_inv {a b : ℂ} (ha : a ≠ 0) (hb : b ≠ 0) : (ad a b)⁻¹ = ad b⁻¹ a⁻¹ :=
  inv_eq_right_inv (by rw [ad_mul, mul_inv_cancel₀ ha, mul_inv_cancel₀ hb, dg_one])
theorem ad_det {a b : ℂ} (ha : a ≠ 0) (hb : b ≠ 0) : (ad a b).det ≠ 0 := by
  have h : ad a b * ad b⁻¹ a⁻¹ = 1 := by rw [ad_mul, mul_inv_cancel₀ ha, mul_inv_cancel₀ hb, dg_one]
  exact left_ne_zero_of_mul (b := (ad b⁻¹ a⁻¹).det) (by rw [← det_mul, h]; simp)

theorem propX_dg (l : ℂ) (t : ℝ) :
    propX (fun _ : Fin 1 ⊕ Fin 1 => l) t = dg (Complex.exp (-(l * t))) (Complex.exp (-(l * t))) := by
  ext i j
  rcases i with i | i <;> rcases j with j | j <;> fin_cases i <;> fin_cases j <;> simp [propX, dg]

/-- When the slab can be solved: the determinant of its matrix, with `x` the phase across it. -/
theorem guided_scatmat {d k0 : ℝ} :
    (∃ S, buildScatmat 1 (ad (-Complex.I) (3 * Complex.I)) 1 (ad (-1) (-1)) (fun _ => Complex.I) d k0 = .ok S) ↔
      (1 + Complex.I / 3) ^ 2 ≠ Complex.exp (-(Complex.I * (d * k0 : ℝ))) ^ 2 * (1 - Complex.I / 3) ^ 2 ∧
      (1 - Complex.I) ^ 2 ≠ Complex.exp (-(Complex.I * (d * k0 : ℝ))) ^ 2 * (1 + Complex.I) ^ 2 := by
  have hI := Complex.I_sq
  have h1 : (-Complex.I) ≠ 0 := neg_ne_zero.2 Complex.I_ne_zero
  have h3 : (3 * Complex.I) ≠ 0 := mul_ne_zero (by norm_num) Complex.I_ne_zero
  have ha : (1 + Complex.I / 3) ≠ 0 := fun h => by simpa using congrArg Complex.re h
  have hb : (1 - Complex.I) ≠ 0 := fun h => by simpa using congrArg Complex.re h
  have e1 : (3 * Complex.I)⁻¹ * -1 = Complex.I / 3 := by field_simp; rw [hI]
  have e2 : (-Complex.I)⁻¹ * -1 = -Complex.I := by field_simp; rw [hI]; norm_num
  have hA : (1 : Matrix (Fin 1 ⊕ Fin 1) (Fin 1 ⊕ Fin 1) ℂ)⁻¹ * 1 +
      (ad (-Complex.I) (3 * Complex.I))⁻¹ * ad (-1) (-1) = dg (1 + Complex.I / 3) (1 - Complex.I) := by
    rw [ad_inv h1 h3, ad_mul, e1, e2, inv_one, mul_one, ← dg_one, dg_add]; rfl
  have hB : (1 : Matrix (Fin 1 ⊕ Fin 1) (Fin 1 ⊕ Fin 1) ℂ)⁻¹ * 1 -
      (ad (-Complex.I) (3 * Complex.I))⁻¹ * ad (-1) (-1) = dg (1 - Complex.I / 3) (1 + Complex.I) := by
    rw [ad_inv h1 h3, ad_mul, e1, e2, inv_one, mul_one, ← dg_one, dg_sub, sub_neg_eq_add]
  set x := Complex.exp (-(Complex.I * (d * k0 : ℝ))) with hx
  have hdet : (dg (1 + Complex.I / 3) (1 - Complex.I) -
      dg x x * dg (1 - Complex.I / 3) (1 + Complex.I) *
        ((dg (1 + Complex.I / 3) (1 - Complex.I))⁻¹ * dg x x) * dg (1 - Complex.I / 3) (1 + Complex.I)).det ≠ 0 ↔
      (1 + Complex.I / 3) ^ 2 ≠ x ^ 2 * (1 - Complex.I / 3) ^ 2 ∧ (1 - Complex.I) ^ 2 ≠ x ^ 2 * (1 + Complex.I) ^ 2 := by
    rw [dg_inv ha hb]
    simp only [dg_mul, dg_sub, dg_det, mul_ne_zero_iff]
    refine and_congr (not_congr ?_) (not_congr ?_)
    · have e : (1 + Complex.I / 3) * (x * (1 - Complex.I / 3) * ((1 + Complex.I / 3)⁻¹ * x) * (1 - Complex.I / 3)) =
          x ^ 2 * (1 - Complex.I / 3) ^ 2 := by
        rw [show ∀ a b : ℂ, a * (x * b * (a⁻¹ * x) * b) = (a * a⁻¹) * (x ^ 2 * b ^ 2) by intros; ring,
          mul_inv_cancel₀ ha, one_mul]
      rw [sub_eq_zero, ← mul_right_inj' ha, e, ← sq]
    · rw [sub_eq_zero, ← mul_right_inj' hb]
      constructor <;> intro h
      · rw [sq, h]; field_simp
      · rw [← sq, h]; field_simp
  rw [← hdet]
  constructor
  · rintro ⟨S, h⟩
    obtain ⟨A, B, X, T, rfl, rfl, rfl, rfl, -, -, -, h4, -⟩ := buildScatmat_eq_ok.1 h
    rwa [hA, hB, propX_dg] at h4
  · intro h
    refine ⟨⟨_, _, _, _⟩, buildScatmat_eq_ok.2
      ⟨_, _, _, _, rfl, rfl, rfl, rfl, by simp, ad_det h1 h3, ?_, ?_, rfl, rfl, rfl, rfl⟩⟩
    · rw [hA, dg_det]; exact mul_ne_zero ha hb
    · rw [hA, hB, propX_dg]; exact h

theorem sqrt_two_sq : ((Real.sqrt 2 : ℝ) : ℂ) ^ 2 = 2 := by
  rw [← Complex.ofReal_pow, Real.sq_sqrt (by norm_num)]; norm_num

theorem guided_kz_vacuum : kzMasked (1 - ((Real.sqrt 2 : ℝ) : ℂ) ^ 2 - ((0 : ℝ) : ℂ) ^ 2) = -Complex.I := by
  rw [sqrt_two_sq, show (1 - 2 - ((0 : ℝ) : ℂ) ^ 2 : ℂ) = ((-1 : ℝ) : ℂ) by push_cast; ring, kzMasked_ofReal]
  norm_num [outerKz]

theorem guided_kz_slab : kzMasked (3 - ((Real.sqrt 2 : ℝ) : ℂ) ^ 2 - ((0 : ℝ) : ℂ) ^ 2) = 1 := by
  rw [sqrt_two_sq, show (3 - 2 - ((0 : ℝ) : ℂ) ^ 2 : ℂ) = ((1 : ℝ) : ℂ) by push_cast; ring, kzMasked_ofReal]
  norm_num [outerKz]

theorem guided_qBlock (e : ℂ) : qBlock (fun _ : Fin 1 => ((Real.sqrt 2 : ℝ) : ℂ)) (fun _ => ((0 : ℝ) : ℂ)) e =
    ad (e - 2) (-e) := by
  have h2 : ((Real.sqrt 2 : ℝ) : ℂ) * ((Real.sqrt 2 : ℝ) : ℂ) = 2 := by rw [← sq, sqrt_two_sq]
  ext i j
  rcases i with i | i <;> rcases j with j | j <;> fin_cases i <;> fin_cases j <;> simp [qBlock, ad, h2]

theorem ad_cols (a b l : ℂ) :
    (Matrix.of fun i j => ad a b i j / (fun _ : Fin 1 ⊕ Fin 1 => l) j) = ad (a / l) (b / l) := by
  ext i j
  rcases i with i | i <;> rcases j with j | j <;> fin_cases i <;> fin_cases j <;> simp [ad]

theorem guided_gap : freeSpaceEigenmodes (fun _ : Fin 1 => ((Real.sqrt 2 : ℝ) : ℂ)) (fun _ => ((0 : ℝ) : ℂ)) =
    .ok (1, ad (-1) (-1)) := by
  refine freeSpaceEigenmodes_eq_ok.2 ⟨fun _ h => ?_, rfl, ?_⟩
  · have := kzMasked_eq_zero.2 h
    rw [guided_kz_vacuum] at this
    exact neg_ne_zero.2 Complex.I_ne_zero this
  · have hs : (stack2 fun _ : Fin 1 => Complex.I * kzMasked (1 - ((Real.sqrt 2 : ℝ) : ℂ) ^ 2 - ((0 : ℝ) : ℂ) ^ 2)) =
        fun _ => (1 : ℂ) := by
      funext i; rcases i with i | i <;> simp only [stack2, Sum.elim_inl, Sum.elim_inr] <;> rw [guided_kz_vacuum] <;> simp
    simp only [hs, guided_qBlock]
    rw [ad_cols]; norm_num

theorem guided_modes : solveUniformLayer (fun _ : Fin 1 => ((Real.sqrt 2 : ℝ) : ℂ)) (fun _ => ((0 : ℝ) : ℂ)) 3 =
    .ok (1, ad (-Complex.I) (3 * Complex.I), fun _ => Complex.I) := by
  have hs : (stack2 fun _ : Fin 1 => Complex.I * kzMasked (3 - ((Real.sqrt 2 : ℝ) : ℂ) ^ 2 - ((0 : ℝ) : ℂ) ^ 2)) =
      fun _ => Complex.I := by
    funext i; rcases i with i | i <;> simp only [stack2, Sum.elim_inl, Sum.elim_inr] <;> rw [guided_kz_slab] <;> simp
  refine solveUniformLayer_eq_ok.2 ⟨by norm_num, fun _ h => ?_, rfl, hs.symm, ?_⟩
  · have := kzMasked_eq_zero.2 h
    rw [guided_kz_slab] at this
    exact one_ne_zero this
  · simp only [guided_qBlock]
    rw [ad_cols]
    congr 1
    · field_simp; rw [Complex.I_sq]; norm_num
    · field_simp; rw [Complex.I_sq]

/-- The wave vector in the plane at which the slab guides light in vacuum, for a wavelength of 1. -/
noncomputable def guidedKp : ℝ × ℝ := (2 * Real.pi * Real.sqrt 2, 0)

theorem guided_orders : (orderKx exampleExpansion guidedKp 1 = fun _ => Real.sqrt 2) ∧
    orderKy exampleExpansion guidedKp 1 = fun _ => 0 :=
  ⟨funext fun i => oblique_kx _ i, funext fun i => oblique_ky _ i⟩

theorem guided_solve (lib : NumLib) (d : ℝ) :
    (∃ r, (Form.uniform 3).solve lib exampleExpansion d ((guidedKp.1 : ℂ), (guidedKp.2 : ℂ)) 1 = .ok r) ↔
      (1 + Complex.I / 3) ^ 2 ≠
        Complex.exp (-(Complex.I * (d * (2 * Real.pi / 1) : ℝ))) ^ 2 * (1 - Complex.I / 3) ^ 2 ∧
      (1 - Complex.I) ^ 2 ≠ Complex.exp (-(Complex.I * (d * (2 * Real.pi / 1) : ℝ))) ^ 2 * (1 + Complex.I) ^ 2 := by
  rw [← guided_scatmat]
  obtain ⟨kz, hk⟩ := real_kVectors exampleExpansion one_ne_zero guidedKp
  simp only [guided_orders] at hk
  simp only [Form.solve, hk, ok_bind, guided_gap, guided_modes]
  constructor
  · rintro ⟨r, h⟩
    simp only [bind_eq_ok] at h
    obtain ⟨S, hS, -⟩ := h
    exact ⟨S, hS⟩
  · rintro ⟨S, hS⟩
    rw [hS]
    simp only [ok_bind, inverseEps_eq_ok.2 ⟨three_ne_zero, rfl⟩]
    exact ⟨_, rfl⟩

theorem phase_quarter : Complex.exp (-(Complex.I * ((1 / 4 : ℝ) * (2 * Real.pi / 1) : ℝ))) ^ 2 = -1 := by
  rw [← Complex.exp_nat_mul, ← Complex.exp_neg_pi_mul_I]
  congr 1; push_cast; ring

theorem phase_eighth : Complex.exp (-(Complex.I * ((1 / 8 : ℝ) * (2 * Real.pi / 1) : ℝ))) ^ 2 = -Complex.I := by
  rw [← Complex.exp_nat_mul, show -Complex.I = Complex.exp (-(Real.pi / 2) * Complex.I) by
    rw [neg_mul, Complex.exp_neg, Complex.exp_pi_div_two_mul_I, Complex.inv_I]]
  congr 1; push_cast; ring

/-- The quarter wave slab cannot be solved. -/
theorem guided_quarter (lib : NumLib) (r : Solved 1) :
    (Form.uniform 3).solve lib exampleExpansion (1 / 4) ((guidedKp.1 : ℂ), (guidedKp.2 : ℂ)) 1 ≠ .ok r := by
  intro h
  refine ((guided_solve lib (1 / 4)).1 ⟨r, h⟩).2 ?_
  rw [phase_quarter]
  ring_nf
  rw [Complex.I_sq]
  ring

/-- Half of it can. -/
theorem guided_eighth (lib : NumLib) :
    ∃ r, (Form.uniform 3).solve lib exampleExpansion (1 / 8) ((guidedKp.1 : ℂ), (guidedKp.2 : ℂ)) 1 = .ok r := by
  refine (guided_solve lib (1 / 8)).2 ⟨?_, ?_⟩
  · rw [phase_eighth]
    intro h
    have := congrArg Complex.re h
    simp [sq] at this
    norm_num at this
  · rw [phase_eighth]
    intro h
    have := congrArg Complex.re h
    simp [sq] at this
    norm_num at this

/-- The slab, whole and as a half, between two media in which the wave propagates. -/
noncomputable def guidedCrystal : Crystal 1 :=
  { expansion := exampleExpansion
    epsi := ((4 : ℝ) : ℂ)
    epse := ((4 : ℝ) : ℂ)
    layers := fun x =>
      if x = "whole" then some (.plain { expansion := exampleExpansion, form := .uniform 3, depth := 1 / 4 })
      else if x = "half" then some (.plain { expansion := exampleExpansion, form := .uniform 3, depth := 1 / 8 })
      else none }

theorem guided_fresh_whole (b : Bool) :
    FreshDevice guidedCrystal ["whole"] (.inl b)
      [{ expansion := exampleExpansion, form := .uniform 3, depth := 1 / 4 }] ((4 : ℝ) : ℂ) ((4 : ℝ) : ℂ) where
  void := rfl
  epsi := rfl
  epse := rfl
  noRef := by simp [guidedCrystal]
  noTrans := by simp [guidedCrystal]
  layers := .cons ⟨by simp [guidedCrystal], trivial, rfl⟩ .nil
  mask := by simp

theorem guided_fresh_halves (b : Bool) :
    FreshDevice guidedCrystal ["half", "half"] (.inl b)
      [{ expansion := exampleExpansion, form := .uniform 3, depth := 1 / 8 },
        { expansion := exampleExpansion, form := .uniform 3, depth := 1 / 8 }] ((4 : ℝ) : ℂ) ((4 : ℝ) : ℂ) where
  void := rfl
  epsi := rfl
  epse := rfl
  noRef := by simp [guidedCrystal]
  noTrans := by simp [guidedCrystal]
  layers := .cons ⟨by simp [guidedCrystal], trivial, rfl⟩ (.cons ⟨by simp [guidedCrystal], trivial, rfl⟩ .nil)
  mask := by simp

theorem guided_source {stack : List String} {b : Bool} {Ls : List (Layer 1)} {er et : ℂ}
    (hfr : FreshDevice guidedCrystal stack (.inl b) Ls er et) (te tm : ℂ) :
    ∃ c1 c2 src, guidedCrystal.setDevice stack (.inl b) = .ok c1 ∧
    c1.setSource 1 te tm 0 0 (some ((guidedKp.1 : ℂ), (guidedKp.2 : ℂ))) = .ok c2 ∧
    c2.source = some src ∧ src.kp = ((guidedKp.1 : ℂ), (guidedKp.2 : ℂ)) := by
  obtain ⟨c1, h1, hd, hexp, -, hi, hie⟩ := Crystal.setDevice_standard (m := .inl b) hfr.void hfr.noRef
    hfr.noTrans hfr.layers (by simp [Crystal.maskList])
  exact ⟨c1, _, _, h1, Crystal.setSource_eq_ok.2 ⟨one_ne_zero, _, rfl, rfl⟩, rfl, rfl⟩

theorem guided_propagates (i : Fin 1) :
    0 < (4 : ℝ) - orderKx exampleExpansion guidedKp 1 i ^ 2 - orderKy exampleExpansion guidedKp 1 i ^ 2 := by
  simp only [guided_orders]
  norm_num

theorem guided_evanescent (i : Fin 1) :
    1 - orderKx exampleExpansion guidedKp 1 i ^ 2 - orderKy exampleExpansion guidedKp 1 i ^ 2 ≠ 0 := by
  simp only [guided_orders]
  norm_num

end Khepri
