import Verif.Lemmas.Device

/-!
# Properties C07–C12, C18–C20: layers, half spaces, whole devices
-/

namespace Khepri

open Matrix

variable {n : Type} [Fintype n] [DecidableEq n]

/-! ### C07 -/

/-- **C07.** If `build_scatmat(W, V, W0, V0, lam, d, k0)` returns `S`, then gap amplitudes satisfy `S`
exactly when the tangential fields they carry are continuous, at both faces, with a superposition of
the layer's modes propagating through it; and `S` is the only matrix with that property. -/
theorem C07_layer_bvp {W V W0 V0 : Matrix n n ℂ} {lam : n → ℂ} {d k0 : ℝ} {S : SMat n}
    (h : buildScatmat W V W0 V0 lam d k0 = .ok S) :
    (∀ p q, Scatters S p q ↔ LayerBVP W V W0 V0 lam (d * k0) p q) ∧
    ∀ S', (∀ p q, Scatters S' p q ↔ LayerBVP W V W0 V0 lam (d * k0) p q) → S' = S :=
  ⟨scatters_buildScatmat h, fun _ h' => SMat.ext_scatters fun p q hpq =>
    (scatters_buildScatmat h p q).2 ((h' p q).1 hpq)⟩

/-- Non-vacuity of C07 (and C09): a slab of admittance contrast 2 and any depth. -/
theorem layer_example (d : ℝ) (hd : 0 ≤ d) :
    ∃ S, buildScatmat (n := Unit) 1 ((2 : ℂ) • 1) 1 1 (fun _ => 1) d 1 = .ok S := by
  refine buildScatmat_ok_scalar (by simp) two_ne_zero (by norm_num) ?_
  intro h
  have h' := congrArg norm h
  rw [norm_mul, norm_pow, norm_pow, norm_pow, Complex.norm_exp] at h'
  have : (-(1 : ℂ) * d * (1 : ℝ)).re = -d := by simp
  rw [this] at h'
  have e : Real.exp (-d) ≤ 1 := Real.exp_le_one_iff.2 (by linarith)
  have e' := Real.exp_pos (-d)
  norm_num at h'
  nlinarith

example : ∃ S, buildScatmat (n := Unit) 1 ((2 : ℂ) • 1) 1 1 (fun _ => 1) 3 1 = .ok S :=
  layer_example 3 (by norm_num)

/-! ### C08 -/

/-- **C08.** At zero depth `build_scatmat` returns `scattering_identity` whenever it returns,
whatever the modes. -/
theorem C08_zero_thickness {W V W0 V0 : Matrix n n ℂ} {lam : n → ℂ} {k0 : ℝ} {S : SMat n}
    (h : buildScatmat W V W0 V0 lam 0 k0 = .ok S) : S = scatteringIdentity n :=
  buildScatmat_zero h

/-- **C08**, when it returns: exactly when the layer's and the gap's mode matrices are invertible and
the impedance mismatch matrix `A` is. -/
theorem C08_zero_thickness_ok_iff {W V W0 V0 : Matrix n n ℂ} {lam : n → ℂ} {k0 : ℝ} :
    (∃ S, buildScatmat W V W0 V0 lam 0 k0 = .ok S) ↔
      W.det ≠ 0 ∧ V.det ≠ 0 ∧ W0.det ≠ 0 ∧ V0.det ≠ 0 ∧ (W⁻¹ * W0 + V⁻¹ * V0).det ≠ 0 := by
  have key : ∀ A B : Matrix n n ℂ, A.det ≠ 0 →
      A - propX lam (0 * k0) * B * (A⁻¹ * propX lam (0 * k0)) * B = (A - B) * A⁻¹ * (A + B) := by
    intro A B hA
    have : propX lam (0 * k0) = 1 := by
      rw [propX, zero_mul]; simp
    rw [this, Matrix.one_mul, Matrix.mul_one, Matrix.sub_mul, mul_inv_of_det hA, Matrix.sub_mul,
      Matrix.one_mul, Matrix.mul_add, Matrix.mul_assoc B A⁻¹ A, inv_mul_of_det hA, Matrix.mul_one]
    abel
  have key2 : (W⁻¹ * W0 + V⁻¹ * V0) - (W⁻¹ * W0 - V⁻¹ * V0) = (2 : ℂ) • (V⁻¹ * V0) := by module
  have key3 : (W⁻¹ * W0 + V⁻¹ * V0) + (W⁻¹ * W0 - V⁻¹ * V0) = (2 : ℂ) • (W⁻¹ * W0) := by module
  constructor
  · rintro ⟨S, hS⟩
    obtain ⟨A, B, X, T, rfl, rfl, rfl, rfl, dW, dV, dA, dT, -⟩ := buildScatmat_eq_ok.1 hS
    rw [key _ _ dA, key2, key3, det_mul, det_mul, det_smul, det_smul, det_mul, det_mul] at dT
    refine ⟨dW, dV, ?_, ?_, dA⟩ <;> (intro h0; simp [h0] at dT)
  · rintro ⟨dW, dV, dW0, dV0, dA⟩
    have iV : (V⁻¹).det ≠ 0 := (Matrix.isUnit_nonsing_inv_det V (isUnit_iff_ne_zero.2 dV)).ne_zero
    have iW : (W⁻¹).det ≠ 0 := (Matrix.isUnit_nonsing_inv_det W (isUnit_iff_ne_zero.2 dW)).ne_zero
    have iA := (Matrix.isUnit_nonsing_inv_det _ (isUnit_iff_ne_zero.2 dA)).ne_zero
    refine ⟨⟨_, _, _, _⟩, buildScatmat_eq_ok.2 ⟨_, _, _, _, rfl, rfl, rfl, rfl, dW, dV, dA, ?_, rfl,
      rfl, rfl, rfl⟩⟩
    rw [key _ _ dA, key2, key3, det_mul, det_mul, det_smul, det_smul, det_mul, det_mul]
    have h2 : (2 : ℂ) ^ Fintype.card n ≠ 0 := pow_ne_zero _ two_ne_zero
    exact mul_ne_zero (mul_ne_zero (mul_ne_zero h2 (mul_ne_zero iV dV0)) iA)
      (mul_ne_zero h2 (mul_ne_zero iW dW0))

/-- **C08**, insertion: putting a zero-depth layer anywhere in a stack changes neither whether
`stack_layers` succeeds nor the total matrix. -/
theorem C08_insert {W V W0 V0 : Matrix n n ℂ} {lam : n → ℂ} {k0 : ℝ} {S : SMat n}
    (h : buildScatmat W V W0 V0 lam 0 k0 = .ok S) {before after : List (SMat n)}
    {mask mask' : List Bool} (hm : mask.length = (before ++ S :: after).length)
    (hm' : mask'.length = (before ++ after).length) (T : SMat n) :
    (∃ r, stackLayers (before ++ S :: after) mask = .ok r ∧ r.Stot = T) ↔
    (∃ r, stackLayers (before ++ after) mask' = .ok r ∧ r.Stot = T) := by
  obtain rfl := buildScatmat_zero h
  rw [stackLayers_exists hm, stackLayers_exists hm', leftFold_insert_id]
  have : (before ++ scatteringIdentity n :: after).reverse =
      after.reverse ++ scatteringIdentity n :: before.reverse := by simp
  rw [this, revFold_insert_id, List.reverse_append]

example : ∃ S, buildScatmat (n := Unit) 1 ((2 : ℂ) • 1) 1 1 (fun _ => 1) 0 1 = .ok S :=
  layer_example 0 le_rfl

/-! ### C09 -/

/-- **C09.** Two slices of one material cascade to the slab of the summed depth. -/
theorem C09_two_slices {W V W0 V0 : Matrix n n ℂ} {lam : n → ℂ} {d₁ d₂ k0 : ℝ} {S₁ S₂ S S' : SMat n}
    (h₁ : buildScatmat W V W0 V0 lam d₁ k0 = .ok S₁) (h₂ : buildScatmat W V W0 V0 lam d₂ k0 = .ok S₂)
    (h : buildScatmat W V W0 V0 lam (d₁ + d₂) k0 = .ok S) (hc : redheffer S₁ S₂ = .ok S') :
    S' = S := by
  obtain ⟨hW, hV⟩ := buildScatmat_det h
  apply SMat.ext_scatters
  intro p q hpq
  obtain ⟨m, hm, hm'⟩ := (scatters_redheffer hc p q).1 hpq
  rw [scatters_buildScatmat h, LayerBVP, add_mul, modalTransfer_add hW hV]
  exact ⟨_, (scatters_buildScatmat h₁ p m).1 hm, (scatters_buildScatmat h₂ m q).1 hm'⟩

/-- **C09** for any number of slices, stacked by `stack_layers`. -/
theorem C09_slices {W V W0 V0 : Matrix n n ℂ} {lam : n → ℂ} {k0 : ℝ} {ds : List ℝ}
    {Ss : List (SMat n)} {S : SMat n}
    (hs : List.Forall₂ (fun d S => buildScatmat W V W0 V0 lam d k0 = .ok S) ds Ss)
    (h : buildScatmat W V W0 V0 lam ds.sum k0 = .ok S) {mask : List Bool}
    (hm : mask.length = Ss.length) {r : Stacked n} (hr : stackLayers Ss mask = .ok r) :
    r.Stot = S := by
  obtain ⟨hW, hV⟩ := buildScatmat_det h
  obtain ⟨h1, -⟩ := (stackLayers_exists hm r.Stot).1 ⟨r, hr, rfl⟩
  apply SMat.ext_scatters
  intro p q hpq
  rw [scatters_leftFold h1] at hpq
  simp only [scatters_id, exists_eq_left'] at hpq
  exact (scatters_buildScatmat h p q).2 (slices_chain hW hV hs hpq)

/-- Non-vacuity of C09: slabs of depths 1, 2 and 3 exist (their cascade exists by `C09`'s conclusion
being the third one; resonance-freeness is checked here for a matched slab of any depths). -/
example : (∃ S, buildScatmat (n := Unit) 1 ((2 : ℂ) • 1) 1 1 (fun _ => 1) 1 1 = .ok S) ∧
    (∃ S, buildScatmat (n := Unit) 1 ((2 : ℂ) • 1) 1 1 (fun _ => 1) 2 1 = .ok S) ∧
    (∃ S, buildScatmat (n := Unit) 1 ((2 : ℂ) • 1) 1 1 (fun _ => 1) (1 + 2) 1 = .ok S) :=
  ⟨layer_example 1 (by norm_num), layer_example 2 (by norm_num), layer_example _ (by norm_num)⟩

/-! ### C10 -/

/-- **C10.** For a structured layer: any two eigen-decompositions of `P @ Q`, with any choice of square
roots `lam` of the eigenvalues (`V = Q W / lam` as in the code), give the same S-matrix whenever
both give one. -/
theorem C10_any_basis_any_roots {P Q W W' W0 V0 : Matrix n n ℂ} {lam lam2 lam' lam2' : n → ℂ}
    {d k0 : ℝ} {S S' : SMat n}
    (heig : P * Q * W = W * diagonal lam2) (heig' : P * Q * W' = W' * diagonal lam2')
    (hr : ∀ j, lam j ^ 2 = lam2 j) (hr' : ∀ j, lam' j ^ 2 = lam2' j)
    (h0 : ∀ j, lam j ≠ 0) (h0' : ∀ j, lam' j ≠ 0)
    (hS : buildScatmat W (.of fun i j => (Q * W) i j / lam j) W0 V0 lam d k0 = .ok S)
    (hS' : buildScatmat W' (.of fun i j => (Q * W') i j / lam' j) W0 V0 lam' d k0 = .ok S') :
    S = S' := by
  have m := IsModes.of_eigen h0 hr heig rfl
  have m' := IsModes.of_eigen h0' hr' heig' rfl
  obtain ⟨hW, hV⟩ := buildScatmat_det hS
  obtain ⟨hW', hV'⟩ := buildScatmat_det hS'
  apply SMat.ext_scatters
  intro p q hpq
  rw [scatters_buildScatmat hS, LayerBVP, modal_iff_maxwell hW hV m.1 m.2] at hpq
  rw [scatters_buildScatmat hS', LayerBVP, modal_iff_maxwell hW' hV' m'.1 m'.2]
  exact hpq

section Structured
variable {ι : Type} [Fintype ι] [DecidableEq ι]

/-- **C10** for the functions of the code: `solve_structured_layer` run with two eigensolvers. -/
theorem C10_structured_layer {eig eig' : EigSolver (ι ⊕ ι)} (he : EigContract eig)
    (he' : EigContract eig') {kx ky : ι → ℂ} {C : Matrix ι ι ℂ} {W0 V0 : Matrix (ι ⊕ ι) (ι ⊕ ι) ℂ}
    {m m' : Matrix (ι ⊕ ι) (ι ⊕ ι) ℂ × Matrix (ι ⊕ ι) (ι ⊕ ι) ℂ × (ι ⊕ ι → ℂ)} {d k0 : ℝ}
    {S S' : SMat (ι ⊕ ι)}
    (hm : solveStructuredLayer eig kx ky C = .ok m) (hm' : solveStructuredLayer eig' kx ky C = .ok m')
    (hS : buildScatmat m.1 m.2.1 W0 V0 m.2.2 d k0 = .ok S)
    (hS' : buildScatmat m'.1 m'.2.1 W0 V0 m'.2.2 d k0 = .ok S') : S = S' := by
  obtain ⟨P, l2, hP, hE, hl, h0, hV⟩ := solveStructuredLayer_eq_ok.1 hm
  obtain ⟨P', l2', hP', hE', hl', h0', hV'⟩ := solveStructuredLayer_eq_ok.1 hm'
  rw [hP, Except.ok.injEq] at hP'
  subst hP'
  rw [hV] at hS
  rw [hV'] at hS'
  refine C10_any_basis_any_roots (he _ _ _ hE) (he' _ _ _ hE') ?_ ?_ ?_ ?_ hS hS'
  · intro j; rw [hl]; exact csqrt_sq _
  · intro j; rw [hl']; exact csqrt_sq _
  · intro j; rw [hl]; exact fun h => h0 j (csqrt_eq_zero.1 h)
  · intro j; rw [hl']; exact fun h => h0' j (csqrt_eq_zero.1 h)

end Structured

/-- Non-vacuity of C10: the system `P = Q = 1`, eigenbases `1` and `3`, roots `1` and `-1`, gap
admittance 2. -/
example : ∃ S S', buildScatmat (n := Unit) 1
      (.of fun i j => ((1 : Matrix Unit Unit ℂ) * (1 : Matrix Unit Unit ℂ)) i j / 1)
      1 ((2 : ℂ) • 1) (fun _ => 1) 1 1 = .ok S ∧
    buildScatmat (n := Unit) ((3 : ℂ) • 1)
      (.of fun i j => ((1 : Matrix Unit Unit ℂ) * ((3 : ℂ) • (1 : Matrix Unit Unit ℂ))) i j / (-1))
      1 ((2 : ℂ) • 1) (fun _ => -1) 1 1 = .ok S' := by
  have e1 : (Matrix.of fun i j => ((1 : Matrix Unit Unit ℂ) * (1 : Matrix Unit Unit ℂ)) i j / 1) =
      (1 : ℂ) • (1 : Matrix Unit Unit ℂ) := by ext i j; simp
  have e2 : (Matrix.of fun i j =>
      ((1 : Matrix Unit Unit ℂ) * ((3 : ℂ) • (1 : Matrix Unit Unit ℂ))) i j / (-1)) =
      (-3 : ℂ) • (1 : Matrix Unit Unit ℂ) := by ext i j; simp; norm_num
  rw [e1, e2]
  have t : Real.exp (-1) ^ 2 ≤ 1 := by
    have := Real.exp_le_one_iff.2 (show (-1 : ℝ) ≤ 0 by norm_num)
    have := Real.exp_pos (-1); nlinarith
  have t' : 1 ≤ Real.exp 1 ^ 2 := by
    have := Real.one_le_exp (show (0 : ℝ) ≤ 1 by norm_num); nlinarith
  have h1 := buildScatmat_ok_unit (w := 1) (v := 1) (w0 := 1) (v0 := 2) (c := 1) (d := 1) (k0 := 1)
    (by norm_num) (by norm_num) (by norm_num) (by
      intro h
      have h' := congrArg norm h
      rw [norm_mul, norm_pow, norm_pow, norm_pow, Complex.norm_exp] at h'
      norm_num at h'
      nlinarith)
  have h2 := buildScatmat_ok_unit (w := 3) (v := -3) (w0 := 1) (v0 := 2) (c := -1) (d := 1) (k0 := 1)
    (by norm_num) (by norm_num) (by norm_num) (by
      intro h
      have h' := congrArg norm h
      rw [norm_mul, norm_pow, norm_pow, norm_pow, Complex.norm_exp] at h'
      norm_num at h'
      have := Real.one_le_exp (show (0 : ℝ) ≤ 2 by norm_num)
      linarith)
  obtain ⟨S, h1⟩ := h1
  obtain ⟨S', h2⟩ := h2
  rw [one_smul ℂ (1 : Matrix Unit Unit ℂ)] at h1 h2 ⊢
  exact ⟨S, S', h1, h2⟩

/-! ### C11 -/

section HalfSpaces
variable {ι : Type} [Fintype ι] [DecidableEq ι]

/-- **C11**, entrance: `scattering_reflection` returns the unique S-matrix expressing continuity of the
tangential fields between the modes of the outer medium it returns (left) and the gap (right). -/
theorem C11_reflection {kx ky : ι → ℂ} {W0 V0 : Matrix (ι ⊕ ι) (ι ⊕ ι) ℂ} {er : ℂ}
    {S : SMat (ι ⊕ ι)} {W V : Matrix (ι ⊕ ι) (ι ⊕ ι) ℂ} {lam : ι ⊕ ι → ℂ}
    (h : scatteringReflection kx ky W0 V0 er = .ok (S, W, V, lam)) :
    (∀ p q, Scatters S p q ↔ fieldOf W V p = fieldOf W0 V0 q) ∧
    ∀ S', (∀ p q, Scatters S' p q ↔ fieldOf W V p = fieldOf W0 V0 q) → S' = S := by
  simp only [scatteringReflection, bind_eq_ok] at h
  obtain ⟨⟨W', V', lam'⟩, -, S', hS, h⟩ := h
  simp only [pure, Except.pure, Except.ok.injEq, Prod.mk.injEq] at h
  obtain ⟨rfl, rfl, rfl, rfl⟩ := h
  exact ⟨scatters_reflection hS, fun _ h' => SMat.ext_scatters fun p q hpq =>
    (scatters_reflection hS p q).2 ((h' p q).1 hpq)⟩

/-- **C11**, exit: `scattering_transmission`, with the gap on the left and the outer medium on the
right. -/
theorem C11_transmission {kx ky : ι → ℂ} {W0 V0 : Matrix (ι ⊕ ι) (ι ⊕ ι) ℂ} {er : ℂ}
    {S : SMat (ι ⊕ ι)} {W V : Matrix (ι ⊕ ι) (ι ⊕ ι) ℂ} {lam : ι ⊕ ι → ℂ}
    (h : scatteringTransmission kx ky W0 V0 er = .ok (S, W, V, lam)) :
    (∀ p q, Scatters S p q ↔ fieldOf W0 V0 p = fieldOf W V q) ∧
    ∀ S', (∀ p q, Scatters S' p q ↔ fieldOf W0 V0 p = fieldOf W V q) → S' = S := by
  simp only [scatteringTransmission, bind_eq_ok] at h
  obtain ⟨⟨W', V', lam'⟩, -, S', hS, h⟩ := h
  simp only [pure, Except.pure, Except.ok.injEq, Prod.mk.injEq] at h
  obtain ⟨rfl, rfl, rfl, rfl⟩ := h
  exact ⟨scatters_transmission hS, fun _ h' => SMat.ext_scatters fun p q hpq =>
    (scatters_transmission hS p q).2 ((h' p q).1 hpq)⟩

/-- The modes of an outer medium of real permittivity 4 and the free-space modes, normal incidence. -/
theorem halfSpace_example : ∃ V0, freeSpaceEigenmodes (ι := Unit) 0 0 = .ok (1, V0) ∧ V0.det ≠ 0 ∧
    ∃ lam, halfSpaceModes (ι := Unit) 0 0 4 = .ok (1, (2 : ℂ) • V0, lam) := by
  have h1 : csqrt 1 = 1 := by
    have := csqrt_ofReal_nonneg (x := 1) zero_le_one
    simpa using this
  have h4 : csqrt 4 = 2 := by
    have := csqrt_ofReal_nonneg (x := 4) (by norm_num)
    rw [show (4 : ℝ) = 2 ^ 2 by norm_num, Real.sqrt_sq (by norm_num)] at this
    norm_num at this
    exact this
  have hk : kzMasked 1 = 1 := by simp [kzMasked, h1]
  refine ⟨_, freeSpaceEigenmodes_eq_ok.2 ⟨by simp, rfl, rfl⟩, ?_, ?_⟩
  · have h := (uniform_isModes (ι := Unit) (kx := 0) (ky := 0) (e := 1) one_ne_zero (kz := fun _ => 1)
      (by simp) (by simp)).det_V (by simp) (by rintro (j | j) <;> simp [stack2])
    simpa [hk] using h
  · refine ⟨stack2 fun _ => Complex.I * 2, ?_⟩
    simp only [halfSpaceModes, bind_eq_ok, npDivCols_eq_ok]
    refine ⟨_, ⟨?_, rfl⟩, ?_⟩
    · rintro (j | j) <;> simp [stack2, h4]
    · simp only [pure, Except.pure, Except.ok.injEq, Prod.mk.injEq, true_and]
      have e : ∀ i : Unit, star (csqrt (4 - (0 : Unit → ℂ) i ^ 2 - (0 : Unit → ℂ) i ^ 2)) = 2 := by
        intro i; simp [h4]
      simp only [e, and_true]
      ext i j
      rcases i with i | i <;> rcases j with j | j <;>
        simp [stack2, qBlock, hk, Matrix.smul_apply] <;> ring_nf <;> simp [Complex.inv_I]

theorem reflectionScatmat_ok_scalar {V0 : Matrix n n ℂ} (hV0 : V0.det ≠ 0) {v : ℂ} (h1 : 1 + v ≠ 0) :
    ∃ S, reflectionScatmat 1 V0 1 (v • V0) = .ok S := by
  refine ⟨⟨_, _, _, _⟩, reflectionScatmat_eq_ok.2 ⟨_, _, rfl, rfl, by simp, hV0, ?_, rfl, rfl, rfl, rfl⟩⟩
  rw [Matrix.mul_smul, inv_mul_of_det hV0, inv_one, Matrix.one_mul]
  have : (1 : Matrix n n ℂ) + v • 1 = (1 + v) • 1 := by rw [add_smul, one_smul]
  rw [this, det_smul, det_one, mul_one]
  exact pow_ne_zero _ h1

/-- Non-vacuity of C11: glass (`er = 4`) against the free-space gap. -/
example : ∃ V0 S W V lam, freeSpaceEigenmodes (ι := Unit) 0 0 = .ok (1, V0) ∧
    scatteringReflection 0 0 1 V0 4 = .ok (S, W, V, lam) := by
  obtain ⟨V0, h0, hd, lam, hm⟩ := halfSpace_example
  obtain ⟨S, hS⟩ := reflectionScatmat_ok_scalar hd (v := 2) (by norm_num)
  refine ⟨V0, S, 1, (2 : ℂ) • V0, lam, h0, ?_⟩
  simp only [scatteringReflection, hm, ok_bind, hS]
  rfl

end HalfSpaces

/-! ### C12 (stack level; the statement for `Crystal.solve` is in `Props/Crystal.lean`) -/

/-- **C12.** A device: entrance half space, any list of layers, exit half space, stacked by
`stack_layers`. Its total matrix relates the amplitudes of the two outer media exactly when there is
a field that crosses every layer by that layer's modes and is continuous at every interface. -/
theorem C12_device {W0 V0 Wr Vr Wt Vt : Matrix n n ℂ} {k0 : ℝ} {Sref Strans : SMat n}
    (hr : reflectionScatmat W0 V0 Wr Vr = .ok Sref)
    (ht : transmissionScatmat W0 V0 Wt Vt = .ok Strans)
    {Ls : List (LayerIn n)} {Ss : List (SMat n)}
    (h : List.Forall₂ (fun L S => buildScatmat L.W L.V W0 V0 L.lam L.depth k0 = .ok S) Ls Ss)
    {mask : List Bool} (hm : mask.length = (Sref :: (Ss ++ [Strans])).length) {r : Stacked n}
    (hs : stackLayers (Sref :: (Ss ++ [Strans])) mask = .ok r) (p q : Port n) :
    Scatters r.Stot p q ↔
      FieldChain (Ls.map fun L => ⟨L.W, L.V, L.lam, L.depth * k0⟩) (fieldOf Wr Vr p)
        (fieldOf Wt Vt q) := by
  obtain ⟨h1, -⟩ := (stackLayers_exists hm r.Stot).1 ⟨r, hs, rfl⟩
  rw [scatters_leftFold h1]
  simp only [scatters_id, exists_eq_left']
  exact device_chain hr ht h

/-- **C12**, gap independence: the auxiliary gap medium has no effect on the total matrix. -/
theorem C12_gap_independent {W0 V0 W0' V0' Wr Vr Wt Vt : Matrix n n ℂ} {k0 : ℝ}
    {Sref Strans Sref' Strans' : SMat n}
    (hr : reflectionScatmat W0 V0 Wr Vr = .ok Sref)
    (ht : transmissionScatmat W0 V0 Wt Vt = .ok Strans)
    (hr' : reflectionScatmat W0' V0' Wr Vr = .ok Sref')
    (ht' : transmissionScatmat W0' V0' Wt Vt = .ok Strans')
    {Ls : List (LayerIn n)} {Ss Ss' : List (SMat n)}
    (h : List.Forall₂ (fun L S => buildScatmat L.W L.V W0 V0 L.lam L.depth k0 = .ok S) Ls Ss)
    (h' : List.Forall₂ (fun L S => buildScatmat L.W L.V W0' V0' L.lam L.depth k0 = .ok S) Ls Ss')
    {mask mask' : List Bool} (hm : mask.length = (Sref :: (Ss ++ [Strans])).length)
    (hm' : mask'.length = (Sref' :: (Ss' ++ [Strans'])).length) {r r' : Stacked n}
    (hs : stackLayers (Sref :: (Ss ++ [Strans])) mask = .ok r)
    (hs' : stackLayers (Sref' :: (Ss' ++ [Strans'])) mask' = .ok r') : r.Stot = r'.Stot :=
  SMat.ext_scatters fun p q hpq =>
    (C12_device hr' ht' h' hm' hs' p q).2 ((C12_device hr ht h hm hs p q).1 hpq)

/-- **C12**, Maxwell form: when moreover each layer's modes come from a system `E' = P H`,
`H' = Q E`, the field crosses each layer as Maxwell's equations say. -/
theorem C12_device_maxwell {W0 V0 Wr Vr Wt Vt : Matrix n n ℂ} {k0 : ℝ} {Sref Strans : SMat n}
    (hr : reflectionScatmat W0 V0 Wr Vr = .ok Sref)
    (ht : transmissionScatmat W0 V0 Wt Vt = .ok Strans)
    {Ls : List (LayerIn n)} {Ss : List (SMat n)}
    (h : List.Forall₂ (fun L S => buildScatmat L.W L.V W0 V0 L.lam L.depth k0 = .ok S) Ls Ss)
    {PQ : List (Matrix n n ℂ × Matrix n n ℂ)}
    (hPQ : List.Forall₂ (fun L M => IsModes M.1 M.2 L.W L.V L.lam) Ls PQ)
    {mask : List Bool} (hm : mask.length = (Sref :: (Ss ++ [Strans])).length) {r : Stacked n}
    (hs : stackLayers (Sref :: (Ss ++ [Strans])) mask = .ok r) (p q : Port n) :
    Scatters r.Stot p q ↔
      MaxwellChain ((List.zipWith (fun L M => (M.1, M.2, L.depth * k0)) Ls PQ)) (fieldOf Wr Vr p)
        (fieldOf Wt Vt q) := by
  rw [C12_device hr ht h hm hs]
  apply fieldChain_iff_maxwell
  clear hs hm
  induction h generalizing PQ with
  | nil => cases hPQ; exact .nil
  | cons h1 h2 ih =>
    cases hPQ with
    | cons a b =>
      obtain ⟨hW, hV⟩ := buildScatmat_det h1
      exact .cons ⟨a, rfl, hW, hV⟩ (ih b)

/-! ### C18 -/

section Uniform
variable {ι : Type} [Fintype ι] [DecidableEq ι]

/-- **C18.** The modes returned by `solve_uniform_layer(Kx, Ky, er)` solve the eigenproblem of the
uniform permittivity matrix `er * I`, in the very `P`, `Q` of `solve_structured_layer`:
`P Q W = W diag(lam²)`, `V = Q W / lam`. -/
theorem C18_uniform_modes {kx ky : ι → ℂ} {er : ℂ} {W V : Matrix (ι ⊕ ι) (ι ⊕ ι) ℂ}
    {lam : ι ⊕ ι → ℂ} (h : solveUniformLayer kx ky er = .ok (W, V, lam)) :
    ∃ P, structuredP kx ky (er • 1) = .ok P ∧
      P * structuredQ kx ky (er • 1) * W = W * diagonal (fun j => lam j ^ 2) ∧
      (∀ j, lam j ≠ 0) ∧ V = .of fun i j => (structuredQ kx ky (er • 1) * W) i j / lam j := by
  obtain ⟨he, hg, h1, h2, h3⟩ := solveUniformLayer_eq_ok.1 h
  simp only at h1 h2 h3
  subst h1
  have hk : ∀ i, kzMasked (er - kx i ^ 2 - ky i ^ 2) ≠ 0 := fun i h => hg i (kzMasked_eq_zero.1 h)
  have m := uniform_isModes (kx := kx) (ky := ky) he hk fun i => kzMasked_sq _
  rw [← h2] at m
  refine ⟨_, structuredP_uniform kx ky he, ?_, ?_, ?_⟩
  · have := m.eigen
    rwa [qBlock_eq_structuredQ] at this ⊢
  · rw [h2]; rintro (j | j) <;> simp [stack2, hk]
  · rw [h3, Matrix.mul_one, qBlock_eq_structuredQ]

/-- **C18**, free space: `free_space_eigenmodes` is `solve_uniform_layer` with `er = 1`. -/
theorem C18_free_space {kx ky : ι → ℂ} {W V : Matrix (ι ⊕ ι) (ι ⊕ ι) ℂ} :
    freeSpaceEigenmodes kx ky = .ok (W, V) ↔ ∃ lam, solveUniformLayer kx ky 1 = .ok (W, V, lam) := by
  simp only [freeSpaceEigenmodes_eq_ok, solveUniformLayer_eq_ok]
  constructor
  · rintro ⟨h1, h2, h3⟩; exact ⟨_, one_ne_zero, h1, h2, rfl, h3⟩
  · rintro ⟨lam, -, h1, h2, rfl, h3⟩; exact ⟨h1, h2, h3⟩

/-- **C18**, consequence: a uniform layer and a structured layer whose convolution matrix is
`er * I` (as for a constant pixmap, C24) have the same S-matrix whenever both are formed. -/
theorem C18_uniform_eq_structured {eig : EigSolver (ι ⊕ ι)} (he : EigContract eig) {kx ky : ι → ℂ}
    {er : ℂ} {W0 V0 : Matrix (ι ⊕ ι) (ι ⊕ ι) ℂ}
    {m m' : Matrix (ι ⊕ ι) (ι ⊕ ι) ℂ × Matrix (ι ⊕ ι) (ι ⊕ ι) ℂ × (ι ⊕ ι → ℂ)} {d k0 : ℝ}
    {S S' : SMat (ι ⊕ ι)}
    (hm : solveUniformLayer kx ky er = .ok m) (hm' : solveStructuredLayer eig kx ky (er • 1) = .ok m')
    (hS : buildScatmat m.1 m.2.1 W0 V0 m.2.2 d k0 = .ok S)
    (hS' : buildScatmat m'.1 m'.2.1 W0 V0 m'.2.2 d k0 = .ok S') : S = S' := by
  obtain ⟨W, V, lam⟩ := m
  obtain ⟨P, hP, h1, h2, rfl⟩ := C18_uniform_modes hm
  obtain ⟨P', l2', hP', hE', hl', h0', hV'⟩ := solveStructuredLayer_eq_ok.1 hm'
  rw [hP, Except.ok.injEq] at hP'
  subst hP'
  rw [hV'] at hS'
  refine C10_any_basis_any_roots h1 (he _ _ _ hE') (fun _ => rfl) ?_ h2 ?_ hS hS'
  · intro j; rw [hl']; exact csqrt_sq _
  · intro j; rw [hl']; exact fun h => h0' j (csqrt_eq_zero.1 h)

/-- **C18**, definedness: `solve_uniform_layer` gives finite modes exactly when `er ≠ 0` and no order is
grazing. -/
theorem C18_uniform_ok_iff {kx ky : ι → ℂ} {er : ℂ} :
    (∃ m, solveUniformLayer kx ky er = .ok m) ↔ er ≠ 0 ∧ ∀ i, kx i ^ 2 + ky i ^ 2 ≠ er := by
  have e : ∀ i, er - kx i ^ 2 - ky i ^ 2 ≠ 0 ↔ kx i ^ 2 + ky i ^ 2 ≠ er := fun i => by
    rw [sub_sub, sub_ne_zero, ne_comm]
  constructor
  · rintro ⟨m, hm⟩
    obtain ⟨h1, h2, -⟩ := solveUniformLayer_eq_ok.1 hm
    exact ⟨h1, fun i => (e i).1 (h2 i)⟩
  · rintro ⟨h1, h2⟩
    exact ⟨(1, .of fun i j => qBlock kx ky er i j /
        stack2 (fun i => Complex.I * kzMasked (er - kx i ^ 2 - ky i ^ 2)) j,
      stack2 fun i => Complex.I * kzMasked (er - kx i ^ 2 - ky i ^ 2)),
      solveUniformLayer_eq_ok.2 ⟨h1, fun i => (e i).2 (h2 i), rfl, rfl, rfl⟩⟩

/-- Non-vacuity of C18: 3 orders, one propagating and two evanescent, in an absorbing medium. -/
example : ∃ m, solveUniformLayer (ι := Fin 3) ![-2, 0, 2] ![0, 0, 1] (2 - Complex.I) = .ok m := by
  rw [C18_uniform_ok_iff]
  refine ⟨fun h => by simpa using congrArg Complex.im h, fun i h => ?_⟩
  have := congrArg Complex.im h
  fin_cases i <;> simp [sq] at this

/-! ### C19 -/

/-- **C19**, uniform layers: with real in-plane wave vectors, `Im er ≤ 0` and non-negative depth and wave
number, no forward factor grows; it strictly decays, for positive optical thickness, for every mode
that is absorbed (`Im er < 0`) or evanescent (`Re er < kx² + ky²`). -/
theorem C19_uniform_forward_decay {kx ky : ι → ℝ} {er : ℂ} (hi : er.im ≤ 0)
    {W V : Matrix (ι ⊕ ι) (ι ⊕ ι) ℂ} {lam : ι ⊕ ι → ℂ}
    (h : solveUniformLayer (fun i => (kx i : ℂ)) (fun i => (ky i : ℂ)) er = .ok (W, V, lam))
    {d k0 : ℝ} (hd : 0 ≤ d) (hk : 0 ≤ k0) (j : ι ⊕ ι) :
    ‖Complex.exp (-lam j * d * k0)‖ ≤ 1 ∧
    (0 < d * k0 → (er.im < 0 ∨ er.re < kx (j.elim id id) ^ 2 + ky (j.elim id id) ^ 2) →
      ‖Complex.exp (-lam j * d * k0)‖ < 1) := by
  obtain ⟨-, -, -, h2, -⟩ := solveUniformLayer_eq_ok.1 h
  simp only at h2
  set z := er - (kx (j.elim id id) : ℂ) ^ 2 - (ky (j.elim id id) : ℂ) ^ 2 with hz
  have hl : lam j = Complex.I * kzMasked z := by
    rw [h2]; rcases j with j | j <;> simp [stack2, hz]
  have hzi : z.im = er.im := by
    rw [hz, ← Complex.ofReal_pow, ← Complex.ofReal_pow]; simp [-Complex.ofReal_pow]
  have hzr : z.re = er.re - (kx (j.elim id id) ^ 2 + ky (j.elim id id) ^ 2) := by
    rw [hz, ← Complex.ofReal_pow, ← Complex.ofReal_pow]; simp [-Complex.ofReal_pow]; ring
  have hn : ‖Complex.exp (-lam j * d * k0)‖ = Real.exp ((kzMasked z).im * (d * k0)) := by
    rw [Complex.norm_exp, hl]; congr 1; simp; ring
  rw [hn]
  refine ⟨Real.exp_le_one_iff.2 ?_, fun hp hc => Real.exp_lt_one_iff.2 ?_⟩
  · exact mul_nonpos_of_nonpos_of_nonneg (kzMasked_im_nonpos (by rwa [hzi])) (mul_nonneg hd hk)
  · refine mul_neg_of_neg_of_pos (kzMasked_im_neg ?_) hp
    rw [hzi, hzr]
    rcases hc with hc | hc
    · exact .inl hc
    · exact .inr (by linarith)

/-- **C19**, structured layers: the principal root makes every forward factor non-growing. -/
theorem C19_structured_forward_decay {eig : EigSolver (ι ⊕ ι)} {kx ky : ι → ℂ} {C : Matrix ι ι ℂ}
    {W V : Matrix (ι ⊕ ι) (ι ⊕ ι) ℂ} {lam : ι ⊕ ι → ℂ}
    (h : solveStructuredLayer eig kx ky C = .ok (W, V, lam)) {d k0 : ℝ} (hd : 0 ≤ d) (hk : 0 ≤ k0)
    (j : ι ⊕ ι) : ‖Complex.exp (-lam j * d * k0)‖ ≤ 1 := by
  obtain ⟨_, l2, -, -, h2, -⟩ := solveStructuredLayer_eq_ok.1 h
  simp only at h2
  rw [Complex.norm_exp, h2, Real.exp_le_one_iff]
  have := mul_nonneg (csqrt_re_nonneg (l2 j)) (mul_nonneg hd hk)
  simp
  linarith

/-- **C19**, half spaces of real permittivity: `lam` has non-negative real part, positive for the
evanescent orders, and the propagating ones have `lam = i kz` with `kz > 0`. -/
theorem C19_half_space {kx ky : ι → ℝ} {er : ℝ} {W V : Matrix (ι ⊕ ι) (ι ⊕ ι) ℂ} {lam : ι ⊕ ι → ℂ}
    (h : halfSpaceModes (fun i => (kx i : ℂ)) (fun i => (ky i : ℂ)) (er : ℂ) = .ok (W, V, lam))
    (j : ι ⊕ ι) :
    (er < kx (j.elim id id) ^ 2 + ky (j.elim id id) ^ 2 → 0 < (lam j).re ∧ (lam j).im = 0) ∧
    (kx (j.elim id id) ^ 2 + ky (j.elim id id) ^ 2 < er → (lam j).re = 0 ∧ 0 < (lam j).im) := by
  simp only [halfSpaceModes, bind_eq_ok, npDivCols_eq_ok] at h
  obtain ⟨_, -, h⟩ := h
  simp only [pure, Except.pure, Except.ok.injEq, Prod.mk.injEq] at h
  obtain ⟨-, -, h⟩ := h
  set x : ℝ := er - kx (j.elim id id) ^ 2 - ky (j.elim id id) ^ 2 with hx
  have hl : lam j = Complex.I * star (csqrt (x : ℂ)) := by
    rw [← h, hx]; rcases j with j | j <;> simp [stack2]
  constructor
  · intro hlt
    have hx0 : x < 0 := by rw [hx]; linarith
    rw [hl, csqrt_ofReal_neg hx0]
    have := Real.sqrt_pos.2 (neg_pos.2 hx0)
    simpa using hx0
  · intro hlt
    have hx0 : 0 < x := by rw [hx]; linarith
    rw [hl, csqrt_ofReal_nonneg hx0.le]
    have := Real.sqrt_pos.2 hx0
    simpa using hx0

/-! ### C20 -/

/-- **C20** (exact extent). The modes used by `scattering_reflection`/`scattering_transmission` are modes
of the outer medium (`P Q W = W diag(lam²)`) exactly when its permittivity is real. -/
theorem C20_own_modes_iff_real {kx ky : ι → ℝ} [Nonempty ι] {er : ℂ} (he : er ≠ 0)
    {W V : Matrix (ι ⊕ ι) (ι ⊕ ι) ℂ} {lam : ι ⊕ ι → ℂ}
    (h : halfSpaceModes (fun i => (kx i : ℂ)) (fun i => (ky i : ℂ)) er = .ok (W, V, lam)) :
    (∃ P, structuredP (fun i => (kx i : ℂ)) (fun i => (ky i : ℂ)) (er • 1) = .ok P ∧
      P * structuredQ (fun i => (kx i : ℂ)) (fun i => (ky i : ℂ)) (er • 1) * W =
        W * diagonal (fun j => lam j ^ 2)) ↔ er.im = 0 := by
  simp only [halfSpaceModes, bind_eq_ok, npDivCols_eq_ok] at h
  obtain ⟨_, -, h⟩ := h
  simp only [pure, Except.pure, Except.ok.injEq, Prod.mk.injEq] at h
  obtain ⟨rfl, -, rfl⟩ := h
  have hsq : ∀ i, (Complex.I * star (csqrt (er - (kx i : ℂ) ^ 2 - (ky i : ℂ) ^ 2))) ^ 2 =
      -star (er - (kx i : ℂ) ^ 2 - (ky i : ℂ) ^ 2) := by
    intro i
    rw [mul_pow, Complex.I_sq, ← star_pow, csqrt_sq]; ring
  rw [structuredP_uniform _ _ he]
  simp only [Except.ok.injEq, exists_eq_left', ← qBlock_eq_structuredQ, Matrix.smul_mul, qBlock_sq,
    Matrix.mul_one, Matrix.one_mul, ← diagonal_smul]
  rw [diagonal_injective.eq_iff]
  have key : ∀ i, (1 / er) * -(er * (er - (kx i : ℂ) ^ 2 - (ky i : ℂ) ^ 2)) =
      (Complex.I * star (csqrt (er - (kx i : ℂ) ^ 2 - (ky i : ℂ) ^ 2))) ^ 2 ↔ er.im = 0 := by
    intro i
    rw [hsq, Complex.ext_iff]
    have e1 : (1 / er) * -(er * (er - (kx i : ℂ) ^ 2 - (ky i : ℂ) ^ 2)) =
      -(er - (kx i : ℂ) ^ 2 - (ky i : ℂ) ^ 2) := by field_simp
    rw [e1, ← Complex.ofReal_pow, ← Complex.ofReal_pow]
    simp [-Complex.ofReal_pow]
    constructor <;> intro h <;> linarith
  constructor
  · intro hf
    obtain ⟨i⟩ := ‹Nonempty ι›
    have := congrFun hf (Sum.inl i)
    exact (key i).1 (by simpa [stack2] using this)
  · intro hi
    funext j
    rcases j with i | i
    · simpa [stack2] using (key i).2 hi
    · simpa [stack2] using (key i).2 hi

/-- **C20**, the true part in full: for a real non-zero permittivity the returned triple consists of
modes of the outer medium, `P V = W diag(lam)` and `Q W = V diag(lam)`. -/
theorem C20_real_permittivity_partial {kx ky : ι → ℝ} {er : ℝ} (he : er ≠ 0)
    {W V : Matrix (ι ⊕ ι) (ι ⊕ ι) ℂ} {lam : ι ⊕ ι → ℂ}
    (h : halfSpaceModes (fun i => (kx i : ℂ)) (fun i => (ky i : ℂ)) (er : ℂ) = .ok (W, V, lam)) :
    ∃ P, structuredP (fun i => (kx i : ℂ)) (fun i => (ky i : ℂ)) ((er : ℂ) • 1) = .ok P ∧
      IsModes P (structuredQ (fun i => (kx i : ℂ)) (fun i => (ky i : ℂ)) ((er : ℂ) • 1)) W V lam := by
  have he' : (er : ℂ) ≠ 0 := by exact_mod_cast he
  simp only [halfSpaceModes, bind_eq_ok, npDivCols_eq_ok] at h
  obtain ⟨_, ⟨h0, rfl⟩, h⟩ := h
  simp only [pure, Except.pure, Except.ok.injEq, Prod.mk.injEq] at h
  obtain ⟨rfl, rfl, rfl⟩ := h
  refine ⟨_, structuredP_uniform _ _ he', uniform_isModes he' ?_ ?_⟩
  · intro i hi
    apply h0 (.inl i)
    simp only [stack2, Sum.elim_inl, hi, mul_zero]
  · intro i
    rw [← star_pow, csqrt_sq, ← Complex.ofReal_pow, ← Complex.ofReal_pow]
    simp [-Complex.ofReal_pow]

/-- **C20 is violated** for complex permittivities: at normal incidence on an absorbing medium
(`er = 2 - i`) the half-space modes are produced but do not solve the medium's eigenproblem. -/
theorem C20_counterexample : ∃ (er : ℂ) (W V : Matrix (Unit ⊕ Unit) (Unit ⊕ Unit) ℂ)
    (lam : Unit ⊕ Unit → ℂ), halfSpaceModes (ι := Unit) (fun _ => 0) (fun _ => 0) er = .ok (W, V, lam) ∧
    ¬ ∃ P, structuredP (ι := Unit) (fun _ => 0) (fun _ => 0) (er • 1) = .ok P ∧
      P * structuredQ (fun _ => 0) (fun _ => 0) (er • 1) * W = W * diagonal (fun j => lam j ^ 2) := by
  have he : (2 - Complex.I) ≠ 0 := fun h => by simpa using congrArg Complex.im h
  have hm : ∃ m, halfSpaceModes (ι := Unit) (fun _ => 0) (fun _ => 0) (2 - Complex.I) = .ok m := by
    have h0 : ∀ j : Unit ⊕ Unit, stack2 (fun _ : Unit =>
        Complex.I * star (csqrt ((2 - Complex.I) - 0 ^ 2 - 0 ^ 2))) j ≠ 0 := ?_
    · exact ⟨_, by simp only [halfSpaceModes, npDivCols_eq_ok.2 ⟨h0, rfl⟩, ok_bind]; rfl⟩
    rintro (j | j) <;> simp [stack2, csqrt_eq_zero, he]
  obtain ⟨⟨W, V, lam⟩, hm⟩ := hm
  refine ⟨2 - Complex.I, W, V, lam, hm, ?_⟩
  have hm' : halfSpaceModes (ι := Unit) (fun _ => ((0 : ℝ) : ℂ)) (fun _ => ((0 : ℝ) : ℂ))
      (2 - Complex.I) = .ok (W, V, lam) := by simpa using hm
  have := (C20_own_modes_iff_real (kx := fun _ : Unit => 0) (ky := fun _ => 0) he hm').not.2 (by simp)
  simpa using this

/-- Non-vacuity of the C19/C20 half-space theorems. -/
example : ∃ m, halfSpaceModes (ι := Unit) 0 0 4 = .ok m := by
  obtain ⟨V0, -, -, lam, h⟩ := halfSpace_example
  exact ⟨_, h⟩

end Uniform

end Khepri
