import Verif.Lemmas.Maxwell

set_option linter.unusedSectionVars false

namespace Khepri

open Matrix Complex

/-! ### Principal square roots -/

theorem csqrt_sq (z : ℂ) : csqrt z ^ 2 = z := by
  have := Complex.cpow_nat_inv_pow z (n := 2) two_ne_zero
  unfold csqrt
  norm_num at this ⊢
  exact this

theorem csqrt_mul_self (z : ℂ) : csqrt z * csqrt z = z := by rw [← sq, csqrt_sq]

theorem csqrt_zero : csqrt 0 = 0 := by simp [csqrt]

theorem csqrt_eq_exp {z : ℂ} (h : z ≠ 0) : csqrt z = exp (log z / 2) := by
  rw [csqrt, cpow_def_of_ne_zero h]; congr 1; ring

theorem csqrt_re {z : ℂ} (h : z ≠ 0) :
    (csqrt z).re = Real.exp (Real.log ‖z‖ / 2) * Real.cos (arg z / 2) := by
  rw [csqrt_eq_exp h, exp_re]
  congr 2
  · rw [show log z / 2 = log z / ((2 : ℝ) : ℂ) by norm_num, div_ofReal_re, log_re]
  · rw [show log z / 2 = log z / ((2 : ℝ) : ℂ) by norm_num, div_ofReal_im, log_im]

theorem csqrt_im {z : ℂ} (h : z ≠ 0) :
    (csqrt z).im = Real.exp (Real.log ‖z‖ / 2) * Real.sin (arg z / 2) := by
  rw [csqrt_eq_exp h, exp_im]
  congr 2
  · rw [show log z / 2 = log z / ((2 : ℝ) : ℂ) by norm_num, div_ofReal_re, log_re]
  · rw [show log z / 2 = log z / ((2 : ℝ) : ℂ) by norm_num, div_ofReal_im, log_im]

theorem csqrt_re_nonneg (z : ℂ) : 0 ≤ (csqrt z).re := by
  by_cases h : z = 0
  · simp [h, csqrt_zero]
  · rw [csqrt_re h]
    refine mul_nonneg (Real.exp_pos _).le (Real.cos_nonneg_of_mem_Icc ⟨?_, ?_⟩)
    · linarith [neg_pi_lt_arg z]
    · linarith [arg_le_pi z]

theorem csqrt_re_pos {z : ℂ} (h : z ≠ 0) (h' : arg z ≠ Real.pi) : 0 < (csqrt z).re := by
  rw [csqrt_re h]
  refine mul_pos (Real.exp_pos _) (Real.cos_pos_of_mem_Ioo ⟨?_, ?_⟩)
  · linarith [neg_pi_lt_arg z]
  · linarith [lt_of_le_of_ne (arg_le_pi z) h']

theorem csqrt_re_pos_of_re_pos {z : ℂ} (h : 0 < z.re) : 0 < (csqrt z).re := by
  apply csqrt_re_pos
  · rintro rfl; simp at h
  · intro h'; rw [arg_eq_pi_iff] at h'; linarith [h'.1]

theorem csqrt_im_nonneg {z : ℂ} (h : 0 ≤ z.im) : 0 ≤ (csqrt z).im := by
  by_cases h0 : z = 0
  · simp [h0, csqrt_zero]
  · rw [csqrt_im h0]
    refine mul_nonneg (Real.exp_pos _).le (Real.sin_nonneg_of_nonneg_of_le_pi ?_ ?_)
    · linarith [arg_nonneg_iff.2 h]
    · linarith [arg_le_pi z, Real.pi_pos]

theorem csqrt_im_neg {z : ℂ} (h : z.im < 0) : (csqrt z).im < 0 := by
  have h0 : z ≠ 0 := by rintro rfl; simp at h
  rw [csqrt_im h0]
  refine mul_neg_of_pos_of_neg (Real.exp_pos _) (Real.sin_neg_of_neg_of_neg_pi_lt ?_ ?_)
  · linarith [arg_neg_iff.2 h]
  · linarith [neg_pi_lt_arg z, Real.pi_pos]

theorem csqrt_im_pos {z : ℂ} (h : 0 < z.im) : 0 < (csqrt z).im := by
  have h0 : z ≠ 0 := by rintro rfl; simp at h
  rw [csqrt_im h0]
  refine mul_pos (Real.exp_pos _) (Real.sin_pos_of_pos_of_lt_pi ?_ ?_)
  · have : arg z ≠ 0 := by
      intro h'; rw [arg_eq_zero_iff] at h'; rw [h'.2] at h; exact lt_irrefl _ h
    have := lt_of_le_of_ne (arg_nonneg_iff.2 h.le) (Ne.symm this)
    linarith
  · linarith [arg_le_pi z, Real.pi_pos]

theorem csqrt_ofReal_nonneg {x : ℝ} (h : 0 ≤ x) : csqrt x = (Real.sqrt x : ℝ) := by
  rw [csqrt, Real.sqrt_eq_rpow, Complex.ofReal_cpow h]; norm_num

theorem csqrt_ofReal_neg {x : ℝ} (h : x < 0) : csqrt x = Complex.I * (Real.sqrt (-x) : ℝ) := by
  have hx : (x : ℂ) ≠ 0 := by exact_mod_cast h.ne
  have ha : arg (x : ℂ) = Real.pi := arg_ofReal_of_neg h
  have hn : Real.exp (Real.log ‖(x : ℂ)‖ / 2) = Real.sqrt (-x) := by
    rw [Real.sqrt_eq_rpow, Real.rpow_def_of_pos (by linarith)]
    congr 1
    rw [Complex.norm_real, Real.norm_eq_abs, abs_of_neg h]; ring
  apply Complex.ext
  · rw [csqrt_re hx, ha, Real.cos_pi_div_two]; simp
  · rw [csqrt_im hx, ha, Real.sin_pi_div_two, hn]; simp

theorem csqrt_eq_zero {z : ℂ} : csqrt z = 0 ↔ z = 0 := by
  constructor
  · intro h; rw [← csqrt_sq z, h]; simp
  · rintro rfl; exact csqrt_zero

theorem kzMasked_sq (z : ℂ) : kzMasked z ^ 2 = z := by
  unfold kzMasked
  split_ifs
  · rw [mul_pow, csqrt_sq]; simp
  · exact csqrt_sq z

theorem kzMasked_eq_zero {z : ℂ} : kzMasked z = 0 ↔ z = 0 := by
  constructor
  · intro h; rw [← kzMasked_sq z, h]; simp
  · rintro rfl; simp [kzMasked, csqrt_zero]

theorem kzMasked_im_nonpos {z : ℂ} (h : z.im ≤ 0) : (kzMasked z).im ≤ 0 := by
  unfold kzMasked
  split_ifs with hr
  · have := csqrt_re_nonneg (-z)
    simpa using this
  · rcases h.lt_or_eq with h | h
    · exact (csqrt_im_neg h).le
    · have : z = (z.re : ℝ) := by apply Complex.ext <;> simp [h]
      rw [this, csqrt_ofReal_nonneg (not_lt.1 hr)]; simp

theorem kzMasked_im_neg {z : ℂ} (h : z.im < 0 ∨ z.re < 0) : (kzMasked z).im < 0 := by
  unfold kzMasked
  split_ifs with hr
  · have := csqrt_re_pos_of_re_pos (z := -z) (by simpa using hr)
    simpa using this
  · rcases h with h | h
    · exact csqrt_im_neg h
    · exact absurd h hr

/-! ### Modes of uniform media -/

/-- `W, V, lam` are modes of the system `E' = P H`, `H' = Q E`. -/
def IsModes {n : Type} [Fintype n] [DecidableEq n] (P Q W V : Matrix n n ℂ) (lam : n → ℂ) : Prop :=
  P * V = W * diagonal lam ∧ Q * W = V * diagonal lam

theorem IsModes.eigen {n : Type} [Fintype n] [DecidableEq n] {P Q W V : Matrix n n ℂ} {lam : n → ℂ}
    (h : IsModes P Q W V lam) : P * Q * W = W * diagonal (fun i => lam i ^ 2) := by
  rw [Matrix.mul_assoc, h.2, ← Matrix.mul_assoc, h.1, Matrix.mul_assoc, diagonal_mul_diagonal]
  simp [sq]

theorem IsModes.of_eigen {n : Type} [Fintype n] [DecidableEq n] {P Q W V : Matrix n n ℂ}
    {lam lam2 : n → ℂ}
    (hlam : ∀ j, lam j ≠ 0) (h2 : ∀ j, lam j ^ 2 = lam2 j) (heig : P * Q * W = W * diagonal lam2)
    (hV : V = Matrix.of fun i j => (Q * W) i j / lam j) : IsModes P Q W V lam := by
  have hQ : Q * W = V * diagonal lam := by
    ext i j
    rw [mul_diagonal, hV]
    simp [hlam j]
  refine ⟨?_, hQ⟩
  have : P * V * diagonal lam = W * diagonal lam * diagonal lam := by
    rw [Matrix.mul_assoc, ← hQ, ← Matrix.mul_assoc, heig, Matrix.mul_assoc, diagonal_mul_diagonal]
    congr 2; funext j; rw [← h2, sq]
  ext i j
  have := congrFun (congrFun this i) j
  rw [mul_diagonal, mul_diagonal] at this
  exact mul_right_cancel₀ (hlam j) this

variable {ι : Type} [Fintype ι] [DecidableEq ι]

theorem qBlock_sq (kx ky : ι → ℂ) (e : ℂ) :
    qBlock kx ky e * qBlock kx ky e =
      diagonal (stack2 fun i => -(e * (e - kx i ^ 2 - ky i ^ 2))) := by
  have h1 : ∀ c : ℂ, (c • (1 : Matrix ι ι ℂ)) = diagonal fun _ => c := fun c => by
    rw [← diagonal_one, ← diagonal_smul]; congr 1; funext i; simp
  have hd : (diagonal (stack2 fun i => -(e * (e - kx i ^ 2 - ky i ^ 2))) : Matrix (ι ⊕ ι) (ι ⊕ ι) ℂ)
      = fromBlocks (diagonal fun i => -(e * (e - kx i ^ 2 - ky i ^ 2))) 0 0
        (diagonal fun i => -(e * (e - kx i ^ 2 - ky i ^ 2))) := by
    rw [stack2, fromBlocks_diagonal]
  rw [hd]
  simp only [qBlock, h1, diagonal_mul_diagonal, diagonal_sub, diagonal_neg]
  rw [fromBlocks_multiply]
  simp only [diagonal_mul_diagonal, diagonal_add]
  rw [← diagonal_zero]
  congr 1 <;> (congr 1; funext i; ring)

theorem qBlock_eq_structuredQ (kx ky : ι → ℂ) (e : ℂ) :
    qBlock kx ky e = structuredQ kx ky (e • 1) := rfl

theorem structuredP_uniform (kx ky : ι → ℂ) {e : ℂ} (he : e ≠ 0) :
    structuredP kx ky (e • 1) = .ok ((1 / e) • qBlock kx ky e) := by
  have hdet : (e • (1 : Matrix ι ι ℂ)).det ≠ 0 := by
    rw [det_smul, det_one, mul_one]; exact pow_ne_zero _ he
  have hinv : (e • (1 : Matrix ι ι ℂ))⁻¹ = (1 / e) • (1 : Matrix ι ι ℂ) := by
    apply Matrix.inv_eq_right_inv
    simp [smul_smul, he]
  simp only [structuredP, npSolve_ok hdet, ok_bind, hinv]
  simp only [pure, Except.pure, Except.ok.injEq, qBlock, fromBlocks_smul]
  have e1 : (1 / e) * e = 1 := by field_simp
  congr 1
  · simp
  · simp only [Matrix.smul_mul, Matrix.one_mul, Matrix.mul_smul, smul_sub, smul_smul, e1, one_smul]
  · simp only [Matrix.smul_mul, Matrix.one_mul, Matrix.mul_smul, smul_sub, smul_smul, e1, one_smul]
  · simp only [Matrix.smul_mul, Matrix.one_mul, Matrix.mul_smul, smul_neg]

theorem solveUniformLayer_eq_ok {kx ky : ι → ℂ} {er : ℂ}
    {r : Matrix (ι ⊕ ι) (ι ⊕ ι) ℂ × Matrix (ι ⊕ ι) (ι ⊕ ι) ℂ × (ι ⊕ ι → ℂ)} :
    solveUniformLayer kx ky er = .ok r ↔ er ≠ 0 ∧
      (∀ i, er - kx i ^ 2 - ky i ^ 2 ≠ 0) ∧ r.1 = 1 ∧
      r.2.2 = stack2 (fun i => Complex.I * kzMasked (er - kx i ^ 2 - ky i ^ 2)) ∧
      r.2.1 = Matrix.of fun i j => qBlock kx ky er i j / r.2.2 j := by
  obtain ⟨W, V, lam⟩ := r
  unfold solveUniformLayer
  by_cases he : er = 0
  · simp only [he, if_true, ne_eq, not_true_eq_false, false_and, iff_false]
    simp [throw, throwThe, MonadExceptOf.throw, error_bind]
  · have hQ : (er / 1) • ((1 / er) • qBlock kx ky er) = qBlock kx ky er := by
      rw [smul_smul]; field_simp; simp
    simp only [he, if_false, hQ, bind_eq_ok, npDivCols_eq_ok, ne_eq, not_false_eq_true, true_and]
    constructor
    · rintro ⟨V', ⟨h1, rfl⟩, h⟩
      simp only [pure, Except.pure, Except.ok.injEq, Prod.mk.injEq] at h
      obtain ⟨rfl, rfl, rfl⟩ := h
      refine ⟨fun i hi => ?_, rfl, rfl, rfl⟩
      apply h1 (Sum.inl i)
      simp [stack2, kzMasked_eq_zero.2 hi]
    · rintro ⟨h1, rfl, rfl, rfl⟩
      refine ⟨_, ⟨?_, rfl⟩, rfl⟩
      rintro (j | j) <;> simp [stack2, kzMasked_eq_zero, h1 j]

theorem freeSpaceEigenmodes_eq_ok {kx ky : ι → ℂ}
    {r : Matrix (ι ⊕ ι) (ι ⊕ ι) ℂ × Matrix (ι ⊕ ι) (ι ⊕ ι) ℂ} :
    freeSpaceEigenmodes kx ky = .ok r ↔
      (∀ i, 1 - kx i ^ 2 - ky i ^ 2 ≠ 0) ∧ r.1 = 1 ∧
      r.2 = Matrix.of fun i j => qBlock kx ky 1 i j /
        stack2 (fun i => Complex.I * kzMasked (1 - kx i ^ 2 - ky i ^ 2)) j := by
  obtain ⟨W, V⟩ := r
  simp only [freeSpaceEigenmodes, bind_eq_ok, npDivCols_eq_ok]
  constructor
  · rintro ⟨V', ⟨h1, rfl⟩, h⟩
    simp only [pure, Except.pure, Except.ok.injEq, Prod.mk.injEq] at h
    obtain ⟨rfl, rfl⟩ := h
    refine ⟨fun i hi => ?_, rfl, rfl⟩
    apply h1 (Sum.inl i)
    simp [stack2, kzMasked_eq_zero.2 hi]
  · rintro ⟨h1, rfl, rfl⟩
    refine ⟨_, ⟨?_, rfl⟩, rfl⟩
    rintro (j | j) <;> simp [stack2, kzMasked_eq_zero, h1 j]

/-- Modes built from any square root `kz` of the eigenvalues are modes of the uniform medium. -/
theorem uniform_isModes {kx ky : ι → ℂ} {e : ℂ} (he : e ≠ 0) {kz : ι → ℂ} (hkz : ∀ i, kz i ≠ 0)
    (h2 : ∀ i, kz i ^ 2 = e - kx i ^ 2 - ky i ^ 2) :
    IsModes ((1 / e) • qBlock kx ky e) (qBlock kx ky e) 1
      (Matrix.of fun i j => qBlock kx ky e i j / stack2 (fun i => Complex.I * kz i) j)
      (stack2 fun i => Complex.I * kz i) := by
  have hlam : ∀ j : ι ⊕ ι, stack2 (fun i => Complex.I * kz i) j ≠ 0 := by
    rintro (j | j) <;> simp [stack2, hkz]
  have h2' : ∀ j : ι ⊕ ι, stack2 (fun i => Complex.I * kz i) j ^ 2 =
      stack2 (fun i => -(e - kx i ^ 2 - ky i ^ 2)) j := by
    rintro (j | j) <;> simp [stack2, mul_pow, h2]
  refine IsModes.of_eigen hlam h2' ?_ ?_
  · rw [Matrix.mul_one, Matrix.smul_mul, qBlock_sq, Matrix.one_mul, ← diagonal_smul]
    congr 1
    funext j
    rcases j with j | j <;> simp [stack2] <;> field_simp <;> ring
  · rw [Matrix.mul_one]

theorem IsModes.det_V {n : Type} [Fintype n] [DecidableEq n] {P Q W V : Matrix n n ℂ} {lam : n → ℂ}
    (h : IsModes P Q W V lam) (hW : W.det ≠ 0) (hlam : ∀ j, lam j ≠ 0) : V.det ≠ 0 := by
  have := congrArg Matrix.det h.1
  rw [det_mul, det_mul, det_diagonal] at this
  intro h0
  rw [h0, mul_zero] at this
  exact mul_ne_zero hW (Finset.prod_ne_zero_iff.2 fun i _ => hlam i) this.symm

theorem solveStructuredLayer_eq_ok {eig : EigSolver (ι ⊕ ι)} {kx ky : ι → ℂ} {C : Matrix ι ι ℂ}
    {r : Matrix (ι ⊕ ι) (ι ⊕ ι) ℂ × Matrix (ι ⊕ ι) (ι ⊕ ι) ℂ × (ι ⊕ ι → ℂ)} :
    solveStructuredLayer eig kx ky C = .ok r ↔
      ∃ P lam2, structuredP kx ky C = .ok P ∧ eig (P * structuredQ kx ky C) = .ok (lam2, r.1) ∧
        r.2.2 = (fun i => csqrt (lam2 i)) ∧ (∀ i, lam2 i ≠ 0) ∧
        r.2.1 = Matrix.of fun i j => (structuredQ kx ky C * r.1) i j / r.2.2 j := by
  obtain ⟨W, V, lam⟩ := r
  simp only [solveStructuredLayer, bind_eq_ok, npDivCols_eq_ok, Prod.exists]
  constructor
  · rintro ⟨P, hP, lam2, W', hE, V', ⟨h1, rfl⟩, h⟩
    simp only [pure, Except.pure, Except.ok.injEq, Prod.mk.injEq] at h
    obtain ⟨rfl, rfl, rfl⟩ := h
    exact ⟨P, lam2, hP, hE, rfl, fun i hi => h1 i (csqrt_eq_zero.2 hi), rfl⟩
  · rintro ⟨P, lam2, hP, hE, rfl, h1, rfl⟩
    exact ⟨P, hP, lam2, W, hE, _, ⟨fun i hi => h1 i (csqrt_eq_zero.1 hi), rfl⟩, rfl⟩

end Khepri
