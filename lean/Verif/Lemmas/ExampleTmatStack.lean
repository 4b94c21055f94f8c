import Verif.Lemmas.ExampleRun
import Verif.Lemmas.TmatStackNormal
import Mathlib.Analysis.SpecialFunctions.Trigonometric.DerivHyp

/-! An absorbing plate, half a wavelength of index `1 - i` thick, in the two formulations. -/

set_option linter.unusedSectionVars false

namespace Khepri

open Matrix Complex

theorem csqrt_sq_re {s : ℂ} (h : 0 < s.re) : csqrt (s ^ 2) = s := by
  have := Complex.sq_cpow_two_inv h
  rw [csqrt, one_div]; exact this

theorem index_sq : (1 - I) ^ 2 = -2 * I := by
  have := I_sq
  linear_combination this

theorem index_star_sq : (1 + I) ^ 2 = 2 * I := by
  have := I_sq
  linear_combination this

theorem index_inv : (1 - I)⁻¹ = (1 + I) / 2 := by
  have h : (1 - I) ≠ 0 := by intro h; simpa using congrArg re h
  rw [inv_eq_iff_eq_inv, eq_comm, inv_eq_of_mul_eq_one_right]
  linear_combination (-1 / 2 : ℂ) * I_sq

theorem index_star_inv : (1 + I)⁻¹ = (1 - I) / 2 := by
  rw [inv_eq_of_mul_eq_one_right]
  linear_combination (-1 / 2 : ℂ) * I_sq

/-- The modes of a uniform layer of complex index at normal incidence. -/
theorem normal_uniform_complex {ι : Type} [Fintype ι] [DecidableEq ι] {s : ℂ} (h0 : s ≠ 0) (hs : kzMasked (s ^ 2) = s) :
    solveUniformLayer (0 : ι → ℂ) 0 (s ^ 2) = .ok (1, s • normalV0 ι, stack2 fun _ => I * s) := by
  have e : ∀ i : ι, kzMasked (s ^ 2 - (0 : ι → ℂ) i ^ 2 - (0 : ι → ℂ) i ^ 2) = s := by
    intro i; simp [hs]
  rw [solveUniformLayer_eq_ok]
  simp only [e]
  refine ⟨pow_ne_zero _ h0, fun i => by simp [h0], trivial, trivial, ?_⟩
  ext i j
  rcases i with i | i <;> rcases j with j | j <;>
    simp [stack2, qBlock, Matrix.smul_apply, normalV0] <;> field_simp <;> simp [I_sq]

/-- The plate has an S-matrix in the crystal formulation. -/
theorem lossy_build {ι : Type} [Fintype ι] [DecidableEq ι] : ∃ S, buildScatmat 1 ((1 - I) • normalV0 ι) 1 (normalV0 ι)
    (stack2 fun _ => I * (1 - I)) (1 / 2) (2 * Real.pi) = .ok S := by
  have h0 : (1 - I) ≠ 0 := by intro h; simpa using congrArg re h
  have hX : propX (stack2 fun _ : ι => I * (1 - I)) (1 / 2 * (2 * Real.pi)) = (-(Real.exp (-Real.pi) : ℂ)) • 1 := by
    rw [propX, smul_one_eq_diagonal, diagonal_eq_diagonal_iff]
    intro j
    have : ∀ j : ι ⊕ ι, -(stack2 (fun _ : ι => I * (1 - I)) j * ((1 / 2 * (2 * Real.pi) : ℝ) : ℂ)) =
        -(Real.pi * I) + ((-Real.pi : ℝ) : ℂ) := by
      rintro (j | j) <;> simp only [stack2, Sum.elim_inl, Sum.elim_inr] <;> push_cast <;>
        linear_combination (Real.pi : ℂ) * I_sq
    rw [this, Complex.exp_add, Complex.exp_neg, Complex.exp_pi_mul_I]
    push_cast
    norm_num
  have eA : (1 : Matrix (ι ⊕ ι) (ι ⊕ ι) ℂ)⁻¹ * 1 + ((1 - I) • normalV0 ι)⁻¹ * normalV0 ι = ((3 + I) / 2 : ℂ) • 1 := by
    rw [smul_normalV0_inv h0, inv_one, Matrix.one_mul, index_inv]
    nth_rewrite 1 [← one_smul ℂ (1 : Matrix (ι ⊕ ι) (ι ⊕ ι) ℂ)]
    rw [← add_smul]; congr 1; ring
  have eB : (1 : Matrix (ι ⊕ ι) (ι ⊕ ι) ℂ)⁻¹ * 1 - ((1 - I) • normalV0 ι)⁻¹ * normalV0 ι = ((1 - I) / 2 : ℂ) • 1 := by
    rw [smul_normalV0_inv h0, inv_one, Matrix.one_mul, index_inv]
    nth_rewrite 1 [← one_smul ℂ (1 : Matrix (ι ⊕ ι) (ι ⊕ ι) ℂ)]
    rw [← sub_smul]; congr 1; ring
  have hA : ((3 + I) / 2 : ℂ) ≠ 0 := by
    intro h
    have := congrArg im h
    simp at this
  have hT : ((3 + I) / 2 : ℂ) - (Real.exp (-Real.pi) : ℂ) ^ 2 * ((1 - I) / 2) ^ 2 * ((3 + I) / 2)⁻¹ ≠ 0 := by
    intro h
    have h' : ((3 + I) / 2 : ℂ) ^ 2 - (Real.exp (-Real.pi) : ℂ) ^ 2 * ((1 - I) / 2) ^ 2 = 0 := by
      have := congrArg (· * ((3 + I) / 2 : ℂ)) h
      simp only [sub_mul, zero_mul, inv_mul_cancel_right₀ hA] at this
      linear_combination this
    have e : ((3 + I) / 2 : ℂ) ^ 2 - (Real.exp (-Real.pi) : ℂ) ^ 2 * ((1 - I) / 2) ^ 2 =
        ((2 : ℝ) : ℂ) + ((3 / 2 + Real.exp (-Real.pi) ^ 2 / 2 : ℝ) : ℂ) * I := by
      push_cast
      linear_combination (1 / 4 - (Complex.exp (-Real.pi)) ^ 2 / 4) * I_sq
    rw [e] at h'
    have := congrArg re h'
    rw [add_re, re_ofReal_mul, ofReal_re, I_re] at this
    simp at this
  have eT : ((3 + I) / 2 : ℂ) • (1 : Matrix (ι ⊕ ι) (ι ⊕ ι) ℂ) -
      ((-(Real.exp (-Real.pi) : ℂ)) • 1) * (((1 - I) / 2 : ℂ) • 1) * ((((3 + I) / 2 : ℂ) • 1)⁻¹ * ((-(Real.exp (-Real.pi) : ℂ)) • 1)) *
        (((1 - I) / 2 : ℂ) • 1) =
      (((3 + I) / 2 : ℂ) - (Real.exp (-Real.pi) : ℂ) ^ 2 * ((1 - I) / 2) ^ 2 * ((3 + I) / 2)⁻¹) • 1 := by
    rw [smul_one_inv hA]
    simp only [Matrix.mul_smul, Matrix.mul_one, smul_smul, ← sub_smul]
    congr 1
    ring
  refine ⟨⟨_, _, _, _⟩, buildScatmat_eq_ok.2 ⟨_, _, _, _, rfl, rfl, rfl, rfl, by simp, ?_, ?_, ?_, rfl, rfl, rfl, rfl⟩⟩
  · rw [det_smul]; exact mul_ne_zero (pow_ne_zero _ h0) normalV0_det
  · rw [eA]; exact smul_one_det hA
  · rw [eA, eB, hX, eT]; exact smul_one_det hT

/-- A run of the crystal formulation on the plate. -/
theorem lossy_run {te tm : ℂ} (hpol : polNorm te tm ≠ 0) : ∃ (c3 : Crystal 1) (f : Crystal.Fluxes 1),
    DeviceRun plateLib (oneLayer exampleExpansion (.uniform (-2 * I)) (1 / 2)) ["a"] (.inl true)
      [{ expansion := exampleExpansion, form := .uniform (-2 * I), depth := 1 / 2 }] 1 1 1 te tm 0 0 (some (0, 0)) (0, 0) c3 ∧
    c3.poyntingFluxEnd = .ok f := by
  obtain ⟨S, hS⟩ := lossy_build (ι := Fin 1)
  have hz : kzMasked ((1 - I) ^ 2) = 1 - I := by
    rw [kzMasked, index_sq, if_neg (by simp), ← index_sq, csqrt_sq_re (by simp)]
  have h0 : (1 - I) ≠ 0 := by intro h; simpa using congrArg re h
  have hu := normal_uniform_complex (ι := Fin 1) h0 hz
  rw [index_sq] at hu
  have hr : ∃ r, (Form.uniform (-2 * I)).solve plateLib exampleExpansion (1 / 2) (0, 0) 1 = .ok r := by
    have hk : (2 * Real.pi / 1 : ℝ) = 2 * Real.pi := div_one _
    simp only [Form.solve, example_kVectors, ok_bind, normal_freeSpace, hu, hk, hS]
    rw [inverseEps, if_neg (by simp), ok_bind]
    exact ⟨_, rfl⟩
  obtain ⟨r, hr⟩ := hr
  have hg : ∀ i, 1 - orderKx exampleExpansion (0, 0) 1 i ^ 2 - orderKy exampleExpansion (0, 0) 1 i ^ 2 ≠ 0 := by
    intro i; simp [orderKx, orderKy, exampleExpansion]
  obtain ⟨c3, st, h1, -, -, h2⟩ := oneLayer_run plateLib exampleExpansion one_pos hg te tm (theta := 0) (phi := 0)
    (kpo := some (0, 0)) (by simp [Crystal.orDefault]) (f := .uniform (-2 * I)) (by simp [Form.isLayer])
    (d := 1 / 2) (r := r) (by simpa only [ofReal_zero] using hr) true
  obtain ⟨f, hf⟩ := h2 one_pos hpol (by simp) (.inl ⟨rfl, rfl⟩)
  exact ⟨c3, f, h1, hf⟩

/-- Denominators of the textbook coefficients of the plate, in both conventions. -/
theorem lossy_denominator (pol : Polarisation) :
    stackDenominator pol 0 (2 * Real.pi) [(-2 * I, 1 / 2)] 1 1 =
      ((-(2 * Real.cosh Real.pi + 3 / 2 * Real.sinh Real.pi) : ℝ) : ℂ) + ((Real.sinh Real.pi / 2 : ℝ) : ℂ) * I ∧
    stackDenominator pol 0 (2 * Real.pi) [(2 * I, 1 / 2)] 1 1 =
      ((-(2 * Real.cosh Real.pi - 3 / 2 * Real.sinh Real.pi) : ℝ) : ℂ) + ((Real.sinh Real.pi / 2 : ℝ) : ℂ) * I := by
  have hη := outerAdmittance_normal pol one_pos
  rw [Real.sqrt_one, ofReal_one] at hη
  have l1 : layerKz 0 (-2 * I) = 1 - I := by
    have : layerKz 0 (-2 * I) = csqrt (-2 * I - ((0 : ℝ) : ℂ)) := rfl
    rw [this, ofReal_zero, sub_zero, ← index_sq, csqrt_sq_re (by simp)]
  have l2 : layerKz 0 (2 * I) = 1 + I := by
    have : layerKz 0 (2 * I) = csqrt (2 * I - ((0 : ℝ) : ℂ)) := rfl
    rw [this, ofReal_zero, sub_zero, ← index_star_sq, csqrt_sq_re (by simp)]
  have a1 : pol.admittance (-2 * I) (1 - I) = 1 - I := by
    cases pol with
    | te => rfl
    | tm => have := layerKz_normal (-2 * I); rw [l1] at this; exact this
  have a2 : pol.admittance (2 * I) (1 + I) = 1 + I := by
    cases pol with
    | te => rfl
    | tm => have := layerKz_normal (2 * I); rw [l2] at this; exact this
  have d1 : (1 - I) * (((1 / 2 : ℝ) : ℂ) * ((2 * Real.pi : ℝ) : ℂ)) = Real.pi - Real.pi * I := by push_cast; ring
  have d2 : (1 + I) * (((1 / 2 : ℝ) : ℂ) * ((2 * Real.pi : ℝ) : ℂ)) = Real.pi * I + Real.pi := by push_cast; ring
  have c1 : Complex.cos (Real.pi - Real.pi * I) = -Complex.cosh Real.pi := by
    rw [Complex.cos_pi_sub, Complex.cos_mul_I]
  have s1 : Complex.sin (Real.pi - Real.pi * I) = Complex.sinh Real.pi * I := by
    rw [Complex.sin_pi_sub, Complex.sin_mul_I]
  have c2 : Complex.cos (Real.pi * I + Real.pi) = -Complex.cosh Real.pi := by
    rw [Complex.cos_add_pi, Complex.cos_mul_I]
  have s2 : Complex.sin (Real.pi * I + Real.pi) = -(Complex.sinh Real.pi * I) := by
    rw [Complex.sin_add_pi, Complex.sin_mul_I]
  constructor
  · simp only [stackDenominator, stackFields, abeles, List.map_cons, List.map_nil, List.prod_cons, List.prod_nil, mul_one, hη,
      l1, a1, d1, charMatrix, c1, s1]
    simp only [mulVec, dotProduct, Fin.sum_univ_two, Matrix.of_apply, Matrix.cons_val_zero, Matrix.cons_val_one, Matrix.cons_val',
      Matrix.cons_val_fin_one, div_eq_mul_inv, index_inv]
    push_cast
    linear_combination (Complex.sinh Real.pi * (3 - I) / 2) * I_sq
  · simp only [stackDenominator, stackFields, abeles, List.map_cons, List.map_nil, List.prod_cons, List.prod_nil, mul_one, hη,
      l2, a2, d2, charMatrix, c2, s2]
    simp only [mulVec, dotProduct, Fin.sum_univ_two, Matrix.of_apply, Matrix.cons_val_zero, Matrix.cons_val_one, Matrix.cons_val',
      Matrix.cons_val_fin_one, div_eq_mul_inv, index_star_inv]
    push_cast
    linear_combination (-Complex.sinh Real.pi * (3 + I) / 2) * I_sq

theorem lossy_denominator_ne (pol : Polarisation) : stackDenominator pol 0 (2 * Real.pi) [(2 * I, 1 / 2)] 1 1 ≠ 0 := by
  rw [(lossy_denominator pol).2]
  intro h
  have h' := congrArg im h
  rw [add_im, ofReal_im, im_ofReal_mul, I_im] at h'
  have := Real.sinh_pos_iff.2 Real.pi_pos
  simp only [zero_add, mul_one, zero_im] at h'
  linarith

/-- The two conventions give different transmittances. -/
theorem lossy_differ : ‖transmission .te 0 (2 * Real.pi) [(-2 * I, 1 / 2)] 1 1‖ ^ 2 <
    ‖transmission .te 0 (2 * Real.pi) [(2 * I, 1 / 2)] 1 1‖ ^ 2 := by
  have hη := outerAdmittance_normal .te one_pos
  rw [Real.sqrt_one, ofReal_one] at hη
  have hS := Real.sinh_pos_iff.2 Real.pi_pos
  have hC := Real.cosh_pos Real.pi
  obtain ⟨e1, e2⟩ := lossy_denominator .te
  rw [transmission, transmission, e1, e2, hη, norm_div, norm_div, div_pow, div_pow, Complex.sq_norm (_ + _),
    Complex.sq_norm (_ + _), normSq_add_mul_I, normSq_add_mul_I]
  have : (0 : ℝ) < ‖(2 * 1 : ℂ)‖ ^ 2 := by norm_num
  refine div_lt_div_of_pos_left this ?_ ?_
  · positivity
  · nlinarith [mul_pos hC hS]

/-- The plate on one order in the T-matrix formulation. -/
theorem lossy_tstack (jv1 : ℝ → ℝ) : ∃ (l : TLattice) (S : Matrix (TIdx l.shape) (TIdx l.shape) ℂ),
    TLattice.make (1, 1) (1, 0) (0, 1) (.float 1) (.float 1) = .ok l ∧ l.epsI.val = ((1 : ℝ) : ℂ) ∧ l.epsE.val = ((1 : ℝ) : ℂ) ∧
    l.shape = (1, 1) ∧ TStack jv1 l 1 (0, 0) [(-2 * I, 1 / 2)] S := by
  obtain ⟨l, h, hb⟩ := unit_tlattice (1, 1) rfl (.float 1) (.float 1)
  obtain ⟨-, -, -, -, h1, h2⟩ := TLattice.make_fields h
  have hs : l.shape = (1, 1) := (TLattice.make_shape_iff h (by norm_num)).2 (Or.inl rfl)
  have hI : l.epsI.val = ((1 : ℝ) : ℂ) := by rw [h1]; rfl
  have hE : l.epsE.val = ((1 : ℝ) : ℂ) := by rw [h2]; rfl
  have z0 : (((0 : ℝ) : ℂ), ((0 : ℝ) : ℂ)) = (0, 0) := by simp
  obtain ⟨k0, hk0, gx0, gy0⟩ := TLattice.specular h hs (by norm_num)
  have hk : ∀ k : Fin (l.shape.1 * l.shape.2), k = k0 := by
    intro k
    have a := k.2
    have b := k0.2
    have c : l.shape.1 * l.shape.2 = 1 := by rw [hs]; rfl
    apply Fin.ext
    omega
  have hwave : ∀ k, l.wave (((0 : ℝ) : ℂ), ((0 : ℝ) : ℂ)) k = 0 := by
    intro k; rw [hk k]; simp [TLattice.wave, gx0, gy0]
  have hin : ∀ k, l.inPlane 1 (((0 : ℝ) : ℂ), ((0 : ℝ) : ℂ)) k = 0 := by
    intro k; rw [TLattice.inPlane, hwave]; simp
  have hkI : ∀ k, flatT l.shape (l.kz l.epsI 1 (((0 : ℝ) : ℂ), ((0 : ℝ) : ℂ))) k ≠ 0 := by
    intro k
    have hpi := Real.pi_pos
    rw [hk k, z0, TLattice.specular_kz hI one_pos one_pos gx0 gy0]
    exact_mod_cast (by positivity : Real.sqrt 1 * (2 * Real.pi / 1) ≠ 0)
  obtain ⟨S, hS⟩ := TLattice.layer_exists_of_den (jv1 := jv1) (a := 0) (b := 0) (host := -2 * I) (depth := 1 / 2) h hs (by norm_num) hI one_pos
    one_pos (by simp) hkI (fun k => Or.inl (hwave k)) (fun k => by rw [hin k]; simp) (fun k pol => by
      rw [hin k, div_one]
      have : conjLayers [(-2 * I, 1 / 2)] = [(2 * I, 1 / 2)] := by simp [conjLayers, Complex.conj_ofNat]
      rw [this]
      exact lossy_denominator_ne pol)
  have hr : TLattice.Rooted l.epsI := TLattice.rooted_of_real hI one_pos
  obtain ⟨U, hU⟩ := TLattice.U_exists (l := l) (wl := 1) (kp := (((0 : ℝ) : ℂ), ((0 : ℝ) : ℂ))) one_ne_zero (by rw [hI]; simp) hkI
  obtain ⟨V, hV⟩ := TLattice.V_exists (l := l) (wl := 1) (kp := (((0 : ℝ) : ℂ), ((0 : ℝ) : ℂ))) (eps := l.epsI) one_ne_zero (by rw [hI]; simp) hr
  have hint : tmatInterface l 1 (((0 : ℝ) : ℂ), ((0 : ℝ) : ℂ)) = .ok 1 := by
    have hm : l.epsE = l.epsI := by rw [h1, h2]
    rw [tmatInterface, hU, ok_bind, hm, hV, ok_bind, TLattice.U_mul_Vi hU hV, matrixS_one]
  rw [z0] at hS hint
  exact ⟨l, S, h, hI, hE, hs, .layers (.layer (by simp) hS) hint (multS_one S)⟩

end Khepri
