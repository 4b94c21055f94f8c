import Verif.Spec.Device
import Verif.Lemmas.Device
import Verif.Lemmas.Convolution

set_option linter.unusedSectionVars false

namespace Khepri

open Matrix

section
variable {ι : Type} [Fintype ι] [DecidableEq ι]

theorem structuredP_eq_ok {kx ky : ι → ℂ} {C : Matrix ι ι ℂ} {P : Matrix (ι ⊕ ι) (ι ⊕ ι) ℂ} :
    structuredP kx ky C = .ok P ↔ C.det ≠ 0 ∧ P = maxwellP kx ky C := by
  simp only [structuredP, bind_eq_ok, npSolve_eq_ok, maxwellP]
  constructor
  · rintro ⟨a, ⟨h, rfl⟩, b, ⟨-, rfl⟩, h'⟩
    simp only [pure, Except.pure, Except.ok.injEq] at h'
    refine ⟨h, ?_⟩
    rw [← h']
    simp only [Matrix.mul_assoc]
  · rintro ⟨h, rfl⟩
    refine ⟨_, ⟨h, rfl⟩, _, ⟨h, rfl⟩, ?_⟩
    simp only [pure, Except.pure, Matrix.mul_assoc]

theorem structuredQ_eq (kx ky : ι → ℂ) (C : Matrix ι ι ℂ) :
    structuredQ kx ky C = maxwellQ kx ky C := rfl

theorem star_csqrt_ofReal (x : ℝ) : star (csqrt (x : ℂ)) = outerKz x := by
  unfold outerKz
  split_ifs with h
  · rw [csqrt_ofReal_nonneg h]; simp
  · rw [csqrt_ofReal_neg (not_le.1 h)]; simp

theorem outerKz_sq (x : ℝ) : outerKz x ^ 2 = x := by
  rw [← star_csqrt_ofReal, ← star_pow, csqrt_sq]; simp

theorem outerKz_eq_zero {x : ℝ} : outerKz x = 0 ↔ x = 0 := by
  constructor
  · intro h
    have := outerKz_sq x
    rw [h] at this
    have : (x : ℂ) = 0 := by rw [← this]; simp
    exact_mod_cast this
  · rintro rfl; simp [outerKz]

/-- The modes of a half space of real permittivity carry the fields of `outerField`. -/
theorem halfSpaceModes_outer {kx ky : ι → ℝ} {er : ℝ} {W V : Matrix (ι ⊕ ι) (ι ⊕ ι) ℂ}
    {lam : ι ⊕ ι → ℂ}
    (h : halfSpaceModes (fun i => (kx i : ℂ)) (fun i => (ky i : ℂ)) (er : ℂ) = .ok (W, V, lam)) :
    (∀ i, er - kx i ^ 2 - ky i ^ 2 ≠ 0) ∧ W = 1 ∧
      lam = (fun j => Complex.I * outerKz (er - kx (j.elim id id) ^ 2 - ky (j.elim id id) ^ 2)) ∧
      ∀ p, fieldOf W V p = outerField kx ky er p := by
  simp only [halfSpaceModes, bind_eq_ok, npDivCols_eq_ok] at h
  obtain ⟨V', ⟨h0, rfl⟩, h⟩ := h
  simp only [pure, Except.pure, Except.ok.injEq, Prod.mk.injEq] at h
  obtain ⟨rfl, rfl, rfl⟩ := h
  have hk : ∀ i, star (csqrt ((er : ℂ) - (kx i : ℂ) ^ 2 - (ky i : ℂ) ^ 2)) =
      outerKz (er - kx i ^ 2 - ky i ^ 2) := by
    intro i; rw [← star_csqrt_ofReal]; push_cast; rfl
  have hl : stack2 (fun i => Complex.I * star (csqrt ((er : ℂ) - (kx i : ℂ) ^ 2 - (ky i : ℂ) ^ 2))) =
      fun j => Complex.I * outerKz (er - kx (j.elim id id) ^ 2 - ky (j.elim id id) ^ 2) := by
    funext j; rcases j with j | j <;> simp [stack2, hk]
  refine ⟨?_, rfl, hl, ?_⟩
  · intro i hi
    apply h0 (.inl i)
    rw [hl]
    simp [hi, outerKz]
  · intro p
    rw [hl]
    apply Tang.ext
    · simp [fieldOf, outerField]
    · simp only [fieldOf, outerField, qBlock_eq_structuredQ, structuredQ_eq]
      funext i
      simp only [mulVec, dotProduct, Matrix.of_apply, Pi.sub_apply]
      exact Finset.sum_congr rfl fun j _ => by ring

theorem halfSpaceModes_det {kx ky : ι → ℂ} {er : ℂ} (he : er ≠ 0) {W V : Matrix (ι ⊕ ι) (ι ⊕ ι) ℂ}
    {lam : ι ⊕ ι → ℂ} (h : halfSpaceModes kx ky er = .ok (W, V, lam)) : W.det ≠ 0 ∧ V.det ≠ 0 := by
  simp only [halfSpaceModes, bind_eq_ok, npDivCols_eq_ok] at h
  obtain ⟨V', ⟨h0, rfl⟩, h⟩ := h
  simp only [pure, Except.pure, Except.ok.injEq, Prod.mk.injEq] at h
  obtain ⟨rfl, rfl, rfl⟩ := h
  refine ⟨by simp, ?_⟩
  set lam := stack2 fun i => Complex.I * star (csqrt (er - kx i ^ 2 - ky i ^ 2)) with hlam
  have hV : (Matrix.of fun i j => qBlock kx ky er i j / lam j) * diagonal lam = qBlock kx ky er := by
    ext i j
    rw [mul_diagonal, Matrix.of_apply, div_mul_cancel₀ _ (h0 j)]
  have hQ : (qBlock kx ky er).det ≠ 0 := by
    intro hd
    have := congrArg Matrix.det (qBlock_sq kx ky er)
    rw [det_mul, hd, mul_zero, det_diagonal] at this
    refine (Finset.prod_ne_zero_iff.2 ?_) this.symm
    intro j _
    have hx : ∀ i, er - kx i ^ 2 - ky i ^ 2 ≠ 0 := by
      intro i hi
      apply h0 (.inl i)
      simp [hlam, stack2, hi, csqrt_zero]
    rcases j with j | j <;> simp [stack2, he, hx]
  intro hd
  apply hQ
  rw [← hV, det_mul, hd, zero_mul]

end

/-- What a layer of finite depth stores when it is solved. -/
structure LayerSolved {N : ℕ} (lib : NumLib) (e : Expansion N) (form : Form) (depth : ℝ)
    (kx ky : Fin N → ℂ) (W0 V0 : Mat2 N) (k0 : ℝ) (r : Solved N) : Prop where
  scat : buildScatmat r.W r.V W0 V0 r.L depth k0 = .ok r.S
  perm : ∃ C, Permittivity lib.jv1 e form C ∧ C.det ≠ 0 ∧
    (EigContract (lib.eig N) → IsModes (maxwellP kx ky C) (maxwellQ kx ky C) r.W r.V r.L) ∧
    ((∃ x, r.IC = .num x ∧ C⁻¹ = x • 1) ∨ r.IC = .mat C⁻¹)

variable {N : ℕ}

theorem kVectors_eq_ok {e : Expansion N} {kp : ℂ × ℂ} {wl : ℝ} {eps : ℂ}
    {r : (Fin N → ℂ) × (Fin N → ℂ) × (Fin N → ℂ)} :
    e.kVectors kp wl eps = .ok r ↔ wl ≠ 0 ∧
      r.1 = (fun i => (kp.1 + ((e.g i).1 : ℂ)) / ((2 * Real.pi / wl : ℝ) : ℂ)) ∧
      r.2.1 = (fun i => (kp.2 + ((e.g i).2 : ℂ)) / ((2 * Real.pi / wl : ℝ) : ℂ)) ∧
      r.2.2 = fun i => kzFromKplanar (kp.1 + ((e.g i).1 : ℂ)) (kp.2 + ((e.g i).2 : ℂ))
        (2 * Real.pi / wl) eps / ((2 * Real.pi / wl : ℝ) : ℂ) := by
  obtain ⟨a, b, c⟩ := r
  unfold Expansion.kVectors
  by_cases h : wl = 0
  · simp [h, throw, throwThe, MonadExceptOf.throw]
  · simp only [h, if_false, pure, Except.pure, Except.ok.injEq, Prod.mk.injEq]
    constructor
    · rintro ⟨rfl, rfl, rfl⟩; exact ⟨h, rfl, rfl, rfl⟩
    · rintro ⟨-, rfl, rfl, rfl⟩; exact ⟨rfl, rfl, rfl⟩

theorem inverseEps_eq_ok {eps x : ℂ} : inverseEps eps = .ok x ↔ eps ≠ 0 ∧ x = 1 / eps := by
  unfold inverseEps
  split_ifs with h
  · simp [h]
  · simp [h, eq_comm]

theorem permittivity_convolution {e : Expansion N} {pix : Arr2} {jv1 : ℝ → ℝ}
    {C : Matrix (Fin N) (Fin N) ℂ} (h : convolutionMatrix N pix e.pw = .ok C) :
    Permittivity jv1 e (.fft pix) C := by
  obtain ⟨tag, pw, rfl, rec, g, sigma⟩ := e
  intro r c
  simp only at h r c ⊢
  have h1 : 0 < pw.1 := Nat.pos_of_ne_zero (by rintro h0; have := r.2; simp [h0] at this)
  have h2 : 0 < pw.2 := Nat.pos_of_ne_zero (by rintro h0; have := r.2; simp [h0] at this)
  obtain ⟨-, -, rfl⟩ := convolutionMatrix_eq h1 h2 h
  simp only [Matrix.of_apply, diffAt]
  push_cast
  rfl

theorem IsModes.of_structured {ι : Type} [Fintype ι] [DecidableEq ι] {eig : EigSolver (ι ⊕ ι)}
    (he : EigContract eig) {kx ky : ι → ℂ} {C : Matrix ι ι ℂ}
    {r : Matrix (ι ⊕ ι) (ι ⊕ ι) ℂ × Matrix (ι ⊕ ι) (ι ⊕ ι) ℂ × (ι ⊕ ι → ℂ)}
    (h : solveStructuredLayer eig kx ky C = .ok r) :
    IsModes (maxwellP kx ky C) (maxwellQ kx ky C) r.1 r.2.1 r.2.2 := by
  obtain ⟨P, l2, hP, hE, hl, h0, hV⟩ := solveStructuredLayer_eq_ok.1 h
  obtain ⟨-, rfl⟩ := structuredP_eq_ok.1 hP
  refine IsModes.of_eigen ?_ ?_ (he _ _ _ hE) hV
  · intro j; rw [hl]; exact fun h => h0 j (csqrt_eq_zero.1 h)
  · intro j; rw [hl]; exact csqrt_sq _

theorem smul_one_inv {ι : Type} [Fintype ι] [DecidableEq ι] {x : ℂ} (h : x ≠ 0) :
    (x • (1 : Matrix ι ι ℂ))⁻¹ = (1 / x) • (1 : Matrix ι ι ℂ) := by
  apply Matrix.inv_eq_right_inv
  rw [smul_mul_smul_comm, mul_one_div_cancel h, one_smul, Matrix.one_mul]

theorem smul_one_det {ι : Type} [Fintype ι] [DecidableEq ι] {x : ℂ} (h : x ≠ 0) :
    (x • (1 : Matrix ι ι ℂ)).det ≠ 0 := by
  rw [det_smul, det_one, mul_one]; exact pow_ne_zero _ h

/-- What `Layer.solve` computes for a layer of finite depth. -/
theorem Form.solve_layer {lib : NumLib} {e : Expansion N} {depth : ℝ} {kp : ℂ × ℂ} {wl : ℝ} {form : Form}
    (hf : form.isLayer) {r : Solved N} (h : form.solve lib e depth kp wl = .ok r) :
    ∃ kx ky kz W0 V0, e.kVectors kp wl 1 = .ok (kx, ky, kz) ∧
      freeSpaceEigenmodes kx ky = .ok (W0, V0) ∧
      LayerSolved lib e form depth kx ky W0 V0 (2 * Real.pi / wl) r := by
  simp only [Form.solve, bind_eq_ok] at h
  obtain ⟨⟨kx, ky, kz⟩, hk, ⟨W0, V0⟩, h0, h⟩ := h
  refine ⟨kx, ky, kz, W0, V0, hk, h0, ?_⟩
  have key : ∀ C, Permittivity lib.jv1 e form C →
      solveWithC lib kx ky W0 V0 C depth (2 * Real.pi / wl) = .ok r →
      LayerSolved lib e form depth kx ky W0 V0 (2 * Real.pi / wl) r := by
    intro C hC h
    simp only [solveWithC, bind_eq_ok, npInv_eq_ok] at h
    obtain ⟨IC, ⟨hd, rfl⟩, ⟨W, V, L⟩, hm, S, hS, h⟩ := h
    simp only [pure, Except.pure, Except.ok.injEq] at h
    subst h
    exact ⟨hS, C, hC, hd, fun he => IsModes.of_structured he hm, Or.inr rfl⟩
  cases form with
  | uniform eps =>
    simp only [bind_eq_ok, inverseEps_eq_ok] at h
    obtain ⟨⟨W, V, L⟩, hm, S, hS, ic, ⟨he, rfl⟩, h⟩ := h
    simp only [pure, Except.pure, Except.ok.injEq] at h
    subst h
    obtain ⟨-, hg, h1, h2, h3⟩ := solveUniformLayer_eq_ok.1 hm
    simp only at h1 h2 h3
    subst h1
    refine ⟨hS, eps • 1, rfl, smul_one_det he, fun _ => ?_, Or.inl ⟨_, rfl, smul_one_inv he⟩⟩
    have hkz : ∀ i, kzMasked (eps - kx i ^ 2 - ky i ^ 2) ≠ 0 := fun i h => hg i (kzMasked_eq_zero.1 h)
    have m := uniform_isModes (kx := kx) (ky := ky) he hkz fun i => kzMasked_sq _
    obtain ⟨-, hP⟩ := structuredP_eq_ok.1 (structuredP_uniform kx ky he)
    rw [hP] at m
    rw [h3, h2]
    exact m
  | fft pix =>
    simp only [bind_eq_ok] at h
    obtain ⟨C, hC, h⟩ := h
    exact key C (permittivity_convolution hC) h
  | analytical islands host =>
    simp only [bind_eq_ok] at h
    obtain ⟨C, hC, h⟩ := h
    exact key C hC h
  | halfInc eps => exact hf.elim
  | halfTrn eps => exact hf.elim

theorem Form.solve_halfInc {lib : NumLib} {e : Expansion N} {depth : ℝ} {kp : ℂ × ℂ} {wl : ℝ} {eps : ℂ}
    {r : Solved N} (h : (Form.halfInc eps).solve lib e depth kp wl = .ok r) :
    ∃ kx ky kz W0 V0, e.kVectors kp wl 1 = .ok (kx, ky, kz) ∧
      freeSpaceEigenmodes kx ky = .ok (W0, V0) ∧ eps ≠ 0 ∧
      halfSpaceModes kx ky eps = .ok (r.W, r.V, r.L) ∧
      reflectionScatmat W0 V0 r.W r.V = .ok r.S ∧ r.IC = .num (1 / eps) := by
  simp only [Form.solve, scatteringReflection, bind_eq_ok, inverseEps_eq_ok] at h
  obtain ⟨⟨kx, ky, kz⟩, hk, ⟨W0, V0⟩, h0, ⟨S, W, V, L⟩, ⟨⟨W', V', L'⟩, hm, S', hS, h1⟩, ic, ⟨he, rfl⟩, h⟩ := h
  simp only [pure, Except.pure, Except.ok.injEq, Prod.mk.injEq] at h h1
  obtain ⟨rfl, rfl, rfl, rfl⟩ := h1
  subst h
  exact ⟨kx, ky, kz, W0, V0, hk, h0, he, hm, hS, rfl⟩

theorem Form.solve_halfTrn {lib : NumLib} {e : Expansion N} {depth : ℝ} {kp : ℂ × ℂ} {wl : ℝ} {eps : ℂ}
    {r : Solved N} (h : (Form.halfTrn eps).solve lib e depth kp wl = .ok r) :
    ∃ kx ky kz W0 V0, e.kVectors kp wl 1 = .ok (kx, ky, kz) ∧
      freeSpaceEigenmodes kx ky = .ok (W0, V0) ∧ eps ≠ 0 ∧
      halfSpaceModes kx ky eps = .ok (r.W, r.V, r.L) ∧
      transmissionScatmat W0 V0 r.W r.V = .ok r.S ∧ r.IC = .num (1 / eps) := by
  simp only [Form.solve, scatteringTransmission, bind_eq_ok, inverseEps_eq_ok] at h
  obtain ⟨⟨kx, ky, kz⟩, hk, ⟨W0, V0⟩, h0, ⟨S, W, V, L⟩, ⟨⟨W', V', L'⟩, hm, S', hS, h1⟩, ic, ⟨he, rfl⟩, h⟩ := h
  simp only [pure, Except.pure, Except.ok.injEq, Prod.mk.injEq] at h h1
  obtain ⟨rfl, rfl, rfl, rfl⟩ := h1
  subst h
  exact ⟨kx, ky, kz, W0, V0, hk, h0, he, hm, hS, rfl⟩

end Khepri
