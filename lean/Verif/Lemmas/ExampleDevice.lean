import Verif.Lemmas.Poynting
import Verif.Props.Expansion

/-!
# A device on which everything runs

One order, normal incidence, wavelength 1: a half-wave plate (permittivity 4, depth 1/4) between vacuum
and a medium of permittivity `s ^ 2`.  It witnesses that the hypotheses of the theorems about `Crystal`
can be met.
-/

set_option linter.unusedSectionVars false
set_option linter.unusedSimpArgs false

namespace Khepri

open Matrix

section
variable {ι : Type} [Fintype ι] [DecidableEq ι]

theorem csqrt_sq_pos {s : ℝ} (hs : 0 < s) : csqrt ((s : ℂ) ^ 2) = s := by
  have := csqrt_ofReal_nonneg (x := s ^ 2) (by positivity)
  rw [Real.sqrt_sq hs.le] at this
  push_cast at this
  exact this

theorem kzMasked_sq_pos {s : ℝ} (hs : 0 < s) : kzMasked ((s : ℂ) ^ 2) = s := by
  have h : ((s : ℂ) ^ 2).re = s ^ 2 := by rw [← Complex.ofReal_pow, Complex.ofReal_re]
  rw [kzMasked, if_neg (by rw [h]; exact not_lt.2 (by positivity)), csqrt_sq_pos hs]

/-- Magnetic modes of vacuum at normal incidence. -/
noncomputable def normalV0 (ι : Type) [Fintype ι] [DecidableEq ι] : Matrix (ι ⊕ ι) (ι ⊕ ι) ℂ :=
  Matrix.of fun i j => qBlock (0 : ι → ℂ) 0 1 i j / Complex.I

theorem normalV0_smul {s : ℝ} (hs : 0 < s) :
    (Matrix.of fun i j => qBlock (0 : ι → ℂ) 0 ((s : ℂ) ^ 2) i j /
      stack2 (fun _ : ι => Complex.I * (s : ℂ)) j) = (s : ℂ) • normalV0 ι := by
  have h0 : (s : ℂ) ≠ 0 := by exact_mod_cast hs.ne'
  ext i j
  rcases i with i | i <;> rcases j with j | j <;>
    simp [stack2, qBlock, Matrix.smul_apply, normalV0] <;> field_simp <;> simp [Complex.I_sq]

theorem normal_freeSpace : freeSpaceEigenmodes (0 : ι → ℂ) 0 = .ok (1, normalV0 ι) := by
  have h1 : kzMasked 1 = 1 := by
    have := kzMasked_sq_pos one_pos
    simpa using this
  rw [freeSpaceEigenmodes_eq_ok]
  refine ⟨by simp, rfl, ?_⟩
  have := normalV0_smul (ι := ι) one_pos
  simpa [h1] using this.symm

theorem normal_halfSpace {s : ℝ} (hs : 0 < s) : halfSpaceModes (0 : ι → ℂ) 0 ((s : ℂ) ^ 2) =
    .ok (1, (s : ℂ) • normalV0 ι, stack2 fun _ => Complex.I * (s : ℂ)) := by
  have h0 : (s : ℂ) ≠ 0 := by exact_mod_cast hs.ne'
  have e : ∀ i : ι, star (csqrt ((s : ℂ) ^ 2 - (0 : ι → ℂ) i ^ 2 - (0 : ι → ℂ) i ^ 2)) = s := by
    intro i; simp [csqrt_sq_pos hs]
  simp only [halfSpaceModes, bind_eq_ok, npDivCols_eq_ok, e]
  refine ⟨_, ⟨?_, rfl⟩, ?_⟩
  · rintro (j | j) <;> simp [stack2, h0]
  · rw [normalV0_smul hs]; rfl

theorem normal_uniform {s : ℝ} (hs : 0 < s) : solveUniformLayer (0 : ι → ℂ) 0 ((s : ℂ) ^ 2) =
    .ok (1, (s : ℂ) • normalV0 ι, stack2 fun _ => Complex.I * (s : ℂ)) := by
  have h0 : (s : ℂ) ≠ 0 := by exact_mod_cast hs.ne'
  have e : ∀ i : ι, kzMasked ((s : ℂ) ^ 2 - (0 : ι → ℂ) i ^ 2 - (0 : ι → ℂ) i ^ 2) = s := by
    intro i; simp [kzMasked_sq_pos hs]
  rw [solveUniformLayer_eq_ok]
  simp only [e]
  refine ⟨pow_ne_zero _ h0, fun i => by simp [h0], trivial, trivial, (normalV0_smul hs).symm⟩

theorem normalV0_det : (normalV0 ι).det ≠ 0 := by
  have h := halfSpaceModes_det (ι := ι) (kx := 0) (ky := 0) (er := ((1 : ℝ) : ℂ) ^ 2) (by simp)
    (normal_halfSpace one_pos)
  simpa using h.2

theorem normalV0_inv (s : ℂ) : (normalV0 ι)⁻¹ * (s • normalV0 ι) = s • 1 := by
  rw [Matrix.mul_smul, inv_mul_of_det normalV0_det]

theorem smul_normalV0_inv {s : ℂ} (hs : s ≠ 0) : (s • normalV0 ι)⁻¹ * normalV0 ι = s⁻¹ • 1 := by
  have : (s • normalV0 ι)⁻¹ = s⁻¹ • (normalV0 ι)⁻¹ := by
    apply Matrix.inv_eq_right_inv
    rw [smul_mul_smul_comm, mul_inv_of_det normalV0_det, mul_inv_cancel₀ hs, one_smul]
  rw [this, Matrix.smul_mul, inv_mul_of_det normalV0_det]

/-- Interface from vacuum to a medium of index `s`. -/
noncomputable def fresnel (ι : Type) [DecidableEq ι] (s : ℂ) : SMat (ι ⊕ ι) :=
  ⟨((1 - s) / (1 + s)) • 1, (2 * s / (1 + s)) • 1, (2 / (1 + s)) • 1, ((s - 1) / (1 + s)) • 1⟩

theorem normal_transmission {s : ℝ} (hs : 0 < s) :
    transmissionScatmat 1 (normalV0 ι) 1 ((s : ℂ) • normalV0 ι) = .ok (fresnel ι s) := by
  have h1 : (1 : ℂ) + s ≠ 0 := by
    have : (1 : ℝ) + s ≠ 0 := by positivity
    exact_mod_cast this
  have eA : (1 : Matrix (ι ⊕ ι) (ι ⊕ ι) ℂ)⁻¹ * 1 + (normalV0 ι)⁻¹ * ((s : ℂ) • normalV0 ι) =
      (1 + (s : ℂ)) • 1 := by
    rw [normalV0_inv, inv_one, Matrix.one_mul, add_smul, one_smul]
  have eB : (1 : Matrix (ι ⊕ ι) (ι ⊕ ι) ℂ)⁻¹ * 1 - (normalV0 ι)⁻¹ * ((s : ℂ) • normalV0 ι) =
      (1 - (s : ℂ)) • 1 := by
    rw [normalV0_inv, inv_one, Matrix.one_mul, sub_smul, one_smul]
  simp only [transmissionScatmat, bind_eq_ok, npSolve_eq_ok, npInv_eq_ok]
  refine ⟨_, ⟨by simp, rfl⟩, _, ⟨normalV0_det, rfl⟩, _, ⟨?_, rfl⟩, _, ⟨?_, rfl⟩, ?_⟩
  · rw [eA]; exact smul_one_det h1
  · rw [eA]; exact smul_one_det h1
  · rw [eA, eB, smul_one_inv h1]
    simp only [pure, Except.pure, Except.ok.injEq, fresnel, SMat.mk.injEq, Matrix.smul_mul,
      Matrix.one_mul, smul_smul, ← sub_smul, ← neg_smul]
    refine ⟨?_, ?_, ?_, ?_⟩ <;> congr 1 <;> field_simp <;> ring

theorem normal_reflection : reflectionScatmat 1 (normalV0 ι) 1 (normalV0 ι) = .ok (scatteringIdentity _) := by
  have eA : (1 : Matrix (ι ⊕ ι) (ι ⊕ ι) ℂ)⁻¹ * 1 + (normalV0 ι)⁻¹ * normalV0 ι = (2 : ℂ) • 1 := by
    rw [inv_mul_of_det normalV0_det, inv_one, Matrix.one_mul, two_smul]
  have eB : (1 : Matrix (ι ⊕ ι) (ι ⊕ ι) ℂ)⁻¹ * 1 - (normalV0 ι)⁻¹ * normalV0 ι = 0 := by
    rw [inv_mul_of_det normalV0_det, inv_one, Matrix.one_mul, sub_self]
  simp only [reflectionScatmat, bind_eq_ok, npSolve_eq_ok, npInv_eq_ok]
  refine ⟨_, ⟨by simp, rfl⟩, _, ⟨normalV0_det, rfl⟩, _, ⟨?_, rfl⟩, _, ⟨?_, rfl⟩, ?_⟩
  · rw [eA]; exact smul_one_det two_ne_zero
  · rw [eA]; exact smul_one_det two_ne_zero
  · rw [eA, eB, smul_one_inv two_ne_zero]
    simp only [pure, Except.pure, Except.ok.injEq, scatteringIdentity, SMat.mk.injEq, Matrix.zero_mul,
      Matrix.mul_zero, neg_zero, sub_zero, smul_smul]
    norm_num

/-- The half-wave plate is `(0, -1, -1, 0)`. -/
theorem halfWave : buildScatmat 1 ((2 : ℂ) • normalV0 ι) 1 (normalV0 ι)
    (stack2 fun _ => Complex.I * 2) (1 / 4) (2 * Real.pi) = .ok ⟨0, -1, -1, 0⟩ := by
  have hX : propX (stack2 fun _ : ι => Complex.I * 2) (1 / 4 * (2 * Real.pi)) = -1 := by
    rw [propX, ← diagonal_one, diagonal_neg, diagonal_eq_diagonal_iff]
    intro j
    have : ∀ j : ι ⊕ ι, -(stack2 (fun _ : ι => Complex.I * 2) j * ((1 / 4 * (2 * Real.pi) : ℝ) : ℂ)) =
        -(Real.pi * Complex.I) := by
      rintro (j | j) <;> simp only [stack2, Sum.elim_inl, Sum.elim_inr] <;> push_cast <;> ring
    rw [this, Complex.exp_neg, Complex.exp_pi_mul_I]
    simp
  have eA : (1 : Matrix (ι ⊕ ι) (ι ⊕ ι) ℂ)⁻¹ * 1 + ((2 : ℂ) • normalV0 ι)⁻¹ * normalV0 ι =
      (3 / 2 : ℂ) • 1 := by
    rw [smul_normalV0_inv two_ne_zero, inv_one, Matrix.one_mul]
    nth_rewrite 1 [← one_smul ℂ (1 : Matrix (ι ⊕ ι) (ι ⊕ ι) ℂ)]
    rw [← add_smul]; norm_num
  have eB : (1 : Matrix (ι ⊕ ι) (ι ⊕ ι) ℂ)⁻¹ * 1 - ((2 : ℂ) • normalV0 ι)⁻¹ * normalV0 ι =
      (1 / 2 : ℂ) • 1 := by
    rw [smul_normalV0_inv two_ne_zero, inv_one, Matrix.one_mul]
    nth_rewrite 1 [← one_smul ℂ (1 : Matrix (ι ⊕ ι) (ι ⊕ ι) ℂ)]
    rw [← sub_smul]; norm_num
  have hA : (3 / 2 : ℂ) ≠ 0 := by norm_num
  have hT : (4 / 3 : ℂ) ≠ 0 := by norm_num
  have eT : (3 / 2 : ℂ) • (1 : Matrix (ι ⊕ ι) (ι ⊕ ι) ℂ) -
      -1 * ((1 / 2 : ℂ) • 1) * (((3 / 2 : ℂ) • 1)⁻¹ * -1) * ((1 / 2 : ℂ) • 1) = (4 / 3 : ℂ) • 1 := by
    rw [smul_one_inv hA]
    simp only [Matrix.smul_mul, Matrix.mul_smul, Matrix.one_mul, Matrix.mul_one, Matrix.neg_mul,
      Matrix.mul_neg, neg_neg, smul_smul, ← sub_smul, smul_neg, sub_neg_eq_add, ← add_smul]
    norm_num
  refine buildScatmat_eq_ok.2 ⟨_, _, _, _, rfl, rfl, rfl, rfl, by simp, ?_, ?_, ?_, ?_, ?_, rfl, rfl⟩
  · rw [det_smul]; exact mul_ne_zero (pow_ne_zero _ two_ne_zero) normalV0_det
  · rw [eA]; exact smul_one_det hA
  · rw [eA, eB, hX, eT]; exact smul_one_det hT
  · rw [eA, eB, hX, eT, smul_one_inv hA, smul_one_inv hT]
    simp only [Matrix.smul_mul, Matrix.mul_smul, Matrix.one_mul, Matrix.mul_one, Matrix.neg_mul,
      Matrix.mul_neg, neg_neg, smul_smul, ← sub_smul, smul_neg, sub_neg_eq_add, ← add_smul]
    norm_num
  · rw [eA, eB, hX, eT, smul_one_inv hA, smul_one_inv hT]
    simp only [Matrix.smul_mul, Matrix.mul_smul, Matrix.one_mul, Matrix.mul_one, Matrix.neg_mul,
      Matrix.mul_neg, neg_neg, smul_smul, ← sub_smul, smul_neg, sub_neg_eq_add, ← add_smul]
    norm_num

theorem redheffer_left_zero {n : Type} [Fintype n] [DecidableEq n] {A B : SMat n} (h : A.s22 = 0) :
    redheffer A B = .ok ⟨A.s11 + A.s12 * B.s11 * A.s21, A.s12 * B.s12, B.s21 * A.s21, B.s22⟩ := by
  simp only [redheffer, h, Matrix.mul_zero, Matrix.zero_mul, sub_zero, bind_eq_ok, npSolve_eq_ok]
  refine ⟨_, ⟨by simp, rfl⟩, _, ⟨by simp, rfl⟩, _, ⟨by simp, rfl⟩, _, ⟨by simp, rfl⟩, ?_⟩
  simp [pure, Except.pure]

/-- The cascade vacuum, half-wave plate, exit medium. -/
theorem example_stack (n : Type) [Fintype n] [DecidableEq n] (F : SMat n) (mask : List Bool)
    (hm : mask.length = 3) :
    ∃ r, stackLayers [scatteringIdentity n, ⟨0, -1, -1, 0⟩, F] mask = .ok r ∧
      r.Stot = ⟨F.s11, -F.s12, -F.s21, F.s22⟩ := by
  have h0 : ∀ S : SMat n, redheffer (scatteringIdentity n) S = .ok S := by
    intro S
    rw [redheffer_left_zero rfl]
    simp [scatteringIdentity]
  have h1 : redheffer (⟨0, -1, -1, 0⟩ : SMat n) F = .ok ⟨F.s11, -F.s12, -F.s21, F.s22⟩ := by
    rw [redheffer_left_zero rfl]; simp
  refine (stackLayers_exists (by simpa using hm) _).2 ⟨?_, ?_⟩
  · simp only [leftFold, h0, ok_bind, h1]
  · have h2 : redheffer F (scatteringIdentity n) = .ok F := redheffer_id_right F
    simp only [List.reverse_cons, List.reverse_nil, List.nil_append, List.cons_append, revFold, h2,
      ok_bind, h1, h0]

end

/-- When the parts of a standard device can be solved and cascaded, `solve` returns. -/
theorem StandardDevice.solve_exists {N : ℕ} {lib : NumLib} {order : List String} {c : Crystal N}
    {stack : List String} {mask : List Bool} {lr lt : Layer N} {Ls : List (Layer N)} {er et : ℂ}
    (hd : StandardDevice c stack mask lr Ls lt er et)
    (ho : SetOrder ("Sref" :: (stack ++ ["Strans"])) order) {src : Source} (hs : c.source = some src)
    {rr rt : Solved N} {rs : List (Solved N)} {st : Stacked (Fin N ⊕ Fin N)}
    (hr : (Form.halfInc er).solve lib c.expansion 0 src.kp src.wavelength = .ok rr)
    (hl : List.Forall₂ (fun l r => l.form.solve lib c.expansion l.depth src.kp src.wavelength = .ok r) Ls rs)
    (ht : (Form.halfTrn et).solve lib c.expansion 0 src.kp src.wavelength = .ok rt)
    (hst : stackLayers (rr.S :: (rs.map Solved.S ++ [rt.S])) (true :: (mask ++ [true])) = .ok st) :
    ∃ c', c.solve lib order = .ok c' ∧ c'.stacked = some st ∧
      c'.layers "Sref" = some (.plain (lr.store rr)) ∧
      List.Forall₂ (fun x q => c'.layers x = some (.plain (Layer.store q.1 q.2))) stack (Ls.zip rs) ∧
      c'.layers "Strans" = some (.plain (lt.store rt)) ∧
      Crystal.positions false (0 :: (Ls.map Layer.depth ++ [0])) = .ok c'.stackPositions ∧
      c' = { c with layers := c'.layers, stackPositions := c'.stackPositions, stacked := some st } := by
  classical
  let lay : String → Option (AnyLayer N) := fun x =>
    if x ∈ order then (c.layers x).bind fun l => (l.solve lib src.kp src.wavelength).toOption else c.layers x
  have hplain : ∀ x ∈ order, ∀ (l : Layer N) r, c.layers x = some (.plain l) →
      l.form.solve lib l.expansion l.depth src.kp src.wavelength = .ok r →
      AnyLayer.solve lib src.kp src.wavelength (.plain l) = .ok (.plain (l.store r)) ∧
      lay x = some (.plain (l.store r)) := by
    intro x hx l r h1 h2
    have := AnyLayer.solve_plain.2 ⟨r, h2, rfl⟩
    exact ⟨this, by simp [lay, hx, h1, this, Except.toOption]⟩
  have hlr := hplain "Sref" ((ho.2 _).2 (by simp)) lr rr hd.ref
    (by rw [hd.ref_form, hd.ref_exp, hd.ref_depth]; exact hr)
  have hlt := hplain "Strans" ((ho.2 _).2 (by simp)) lt rt hd.trans
    (by rw [hd.trans_form, hd.trans_exp, hd.trans_depth]; exact ht)
  have hlay : ∀ (stk : List String) (Ls : List (Layer N)) (rs : List (Solved N)),
      (∀ x ∈ stk, x ∈ order) →
      List.Forall₂ (fun x l => c.layers x = some (.plain l) ∧ l.form.isLayer ∧
        l.expansion = c.expansion) stk Ls →
      List.Forall₂ (fun l r => l.form.solve lib c.expansion l.depth src.kp src.wavelength = .ok r) Ls rs →
      (∀ x ∈ stk, ∃ l l', c.layers x = some l ∧ l.solve lib src.kp src.wavelength = .ok l' ∧
        lay x = some l') ∧
      List.Forall₂ (fun x q => lay x = some (.plain (Layer.store q.1 q.2))) stk (Ls.zip rs) := by
    intro stk
    induction stk with
    | nil => intro Ls rs _ h h'; cases h; exact ⟨by simp, .nil⟩
    | cons x stk ih =>
      intro Ls rs hm h h'
      cases h with
      | cons hx hT =>
        cases h' with
        | cons hx' hT' =>
          obtain ⟨i1, i2⟩ := ih _ _ (fun y hy => hm y (by simp [hy])) hT hT'
          have := hplain x (hm x (by simp)) _ _ hx.1 (by rw [hx.2.2]; exact hx')
          refine ⟨?_, .cons this.2 i2⟩
          intro y hy
          rcases List.mem_cons.1 hy with rfl | hy
          · exact ⟨_, _, hx.1, this⟩
          · exact i1 y hy
  obtain ⟨hA, hB⟩ := hlay stack Ls rs (fun x hx => (ho.2 x).2 (by simp [hx])) hd.layers hl
  have hlen : Ls.length = rs.length := hl.length_eq
  let ls : List (AnyLayer N) := .plain (lr.store rr) ::
      ((Ls.zip rs).map (fun q => AnyLayer.plain (Layer.store q.1 q.2)) ++ [.plain (lt.store rt)])
  have hdep : ls.map AnyLayer.depth = 0 :: (Ls.map Layer.depth ++ [0]) := by
    have : (AnyLayer.depth ∘ fun q : Layer N × Solved N => AnyLayer.plain (q.1.store q.2)) =
        fun q => q.1.depth := rfl
    simp only [ls, List.map_cons, List.map_append, List.map_map, List.map_nil, this, map_zip_fst _ hlen]
    simp only [AnyLayer.depth, Layer.store, hd.ref_depth, hd.trans_depth]
  obtain ⟨pos, hpos⟩ : ∃ pos, Crystal.positions false (0 :: (Ls.map Layer.depth ++ [0])) = .ok pos := by
    simp only [Crystal.positions, bind_eq_ok, pyCheck_eq_ok, Crystal.cumsum]
    exact ⟨_, (), pyCheck_ok (by simp), rfl⟩
  refine ⟨{ c with layers := lay, stackPositions := pos, stacked := some st }, ?_, rfl, hlr.2, hB, hlt.2,
    hpos, rfl⟩
  refine (Crystal.solve_eq_ok ho.1).2 ⟨src, _, ls, pos, rr.S :: (rs.map Solved.S ++ [rt.S]), st, hs,
    hd.stacking, ?_, ?_, ?_, ?_, ?_, ?_, rfl⟩
  · intro x hx
    have := (ho.2 x).1 hx
    simp only [List.mem_cons, List.mem_append, List.not_mem_nil, or_false] at this
    rcases this with rfl | h | rfl
    · exact ⟨_, _, hd.ref, hlr⟩
    · exact hA x h
    · exact ⟨_, _, hd.trans, hlt⟩
  · intro x hx; simp [lay, hx]
  · refine .cons hlr.2 (List.rel_append ?_ (.cons hlt.2 .nil))
    rw [List.forall₂_map_right_iff]
    exact hB
  · rw [hdep, hd.void]; exact hpos
  · refine .cons rfl (List.rel_append ?_ (.cons rfl .nil))
    rw [List.forall₂_map_left_iff, ← map_zip_snd Solved.S hlen, List.forall₂_map_right_iff]
    exact List.forall₂_same.2 fun _ _ => rfl
  · rw [hd.retain]; exact hst

/-- One order, unit square lattice. -/
noncomputable def exampleExpansion : Expansion 1 :=
  { tag := 0, pw := (1, 1), hpw := rfl, reciprocal := ((1 * (2 * Real.pi / 1), -0 * (2 * Real.pi / 1)),
      (-0 * (2 * Real.pi / 1), 1 * (2 * Real.pi / 1))),
    g := fun _ => (0, 0), sigma := 1 }

theorem exampleExpansion_make : Expansion.make 0 (1, 1) ((1, 0), (0, 1)) = .ok exampleExpansion := by
  refine make_eq_ok.2 ⟨rfl, rfl, _, reciproc_eq_ok.2 ⟨by norm_num, rfl⟩, ?_⟩
  simp only [exampleExpansion, Expansion.mk.injEq, true_and]
  refine ⟨by norm_num, ?_, by norm_num [unitCellArea]⟩
  funext i
  fin_cases i
  simp [latticeVec, orderAt]

theorem exampleExpansion_built : Built exampleExpansion := Built.make exampleExpansion_make

/-- The crystal a user prepares: vacuum above, a half-wave plate named "a", index `s` below. -/
noncomputable def exampleCrystal (s : ℝ) : Crystal 1 :=
  { expansion := exampleExpansion, epse := (s : ℂ) ^ 2,
    layers := fun x => if x = "a" then some (.plain (Layer.uniform exampleExpansion 4 (1 / 4))) else none }

theorem example_fresh (s : ℝ) (b : Bool) : FreshDevice (exampleCrystal s) ["a"] (.inl b)
    [Layer.uniform exampleExpansion 4 (1 / 4)] ((1 : ℝ) : ℂ) ((s ^ 2 : ℝ) : ℂ) where
  void := rfl
  epsi := by simp [exampleCrystal]
  epse := by simp [exampleCrystal]
  noRef := by simp [exampleCrystal]
  noTrans := by simp [exampleCrystal]
  layers := .cons ⟨by simp [exampleCrystal], trivial, rfl⟩ .nil
  mask := by simp

theorem example_kVectors : exampleExpansion.kVectors (0, 0) 1 1 =
    .ok (0, 0, fun _ => 1) := by
  have hpi : (Real.pi : ℂ) ≠ 0 := by exact_mod_cast Real.pi_ne_zero
  refine kVectors_eq_ok.2 ⟨one_ne_zero, ?_, ?_, ?_⟩
  · funext i; simp [exampleExpansion]
  · funext i; simp [exampleExpansion]
  · funext i
    have : csqrt ((2 * Real.pi) ^ 2 : ℂ) = 2 * Real.pi := by
      have := csqrt_sq_pos (s := 2 * Real.pi) (by have := Real.pi_pos; positivity)
      simpa using this
    simp [exampleExpansion, kzFromKplanar, this]

/-- The source: normal incidence, TE, wavelength 1. -/
noncomputable def exampleSource : Source := ⟨1, 0, 0, 0, 1, (0, 0), 2 * Real.pi⟩

theorem example_setSource {c : Crystal 1} (h : c.epsi = 1) :
    c.setSource 1 1 0 0 0 none = .ok { c with source := some exampleSource } := by
  have : csqrt ((2 * Real.pi) ^ 2 : ℂ) = 2 * Real.pi := by
    have := csqrt_sq_pos (s := 2 * Real.pi) (by have := Real.pi_pos; positivity)
    simpa using this
  refine Crystal.setSource_eq_ok.2 ⟨one_ne_zero, (0, 0), ?_, ?_⟩
  · simp [Crystal.orDefault, computeKplanar, pure, Except.pure]
  · simp [exampleSource, h, this]

/-- What solving the three parts gives. -/
noncomputable def exampleRef : Solved 1 :=
  ⟨1, ((1 : ℝ) : ℂ) • normalV0 (Fin 1), stack2 fun _ => Complex.I * ((1 : ℝ) : ℂ), scatteringIdentity _, .num 1⟩

@[inherit_doc exampleRef]
noncomputable def examplePlate : Solved 1 :=
  ⟨1, ((2 : ℝ) : ℂ) • normalV0 (Fin 1), stack2 fun _ => Complex.I * ((2 : ℝ) : ℂ), ⟨0, -1, -1, 0⟩, .num (1 / 4)⟩

@[inherit_doc exampleRef]
noncomputable def exampleTrans (s : ℝ) : Solved 1 :=
  ⟨1, (s : ℂ) • normalV0 (Fin 1), stack2 fun _ => Complex.I * (s : ℂ), fresnel (Fin 1) s,
    .num (1 / (s : ℂ) ^ 2)⟩

theorem example_ref_solve (lib : NumLib) (d : ℝ) : (Form.halfInc 1).solve lib exampleExpansion d (0, 0) 1 =
    .ok exampleRef := by
  have h := normal_halfSpace (ι := Fin 1) one_pos
  rw [show (((1 : ℝ) : ℂ) ^ 2) = 1 by simp] at h
  have hr : reflectionScatmat 1 (normalV0 (Fin 1)) 1 (((1 : ℝ) : ℂ) • normalV0 (Fin 1)) =
      .ok (scatteringIdentity _) := by
    rw [Complex.ofReal_one, one_smul]; exact normal_reflection
  simp only [Form.solve, example_kVectors, ok_bind, normal_freeSpace, scatteringReflection, h, hr]
  simp [inverseEps, exampleRef, ok_bind, pure, Except.pure]

theorem example_plate_solve (lib : NumLib) :
    (Form.uniform 4).solve lib exampleExpansion (1 / 4) (0, 0) 1 = .ok examplePlate := by
  have h := normal_uniform (ι := Fin 1) two_pos
  rw [show (((2 : ℝ) : ℂ) ^ 2) = 4 by norm_num] at h
  have hr : buildScatmat 1 (((2 : ℝ) : ℂ) • normalV0 (Fin 1)) 1 (normalV0 (Fin 1))
      (stack2 fun _ => Complex.I * ((2 : ℝ) : ℂ)) (1 / 4) (2 * Real.pi / 1) = .ok ⟨0, -1, -1, 0⟩ := by
    have := halfWave (ι := Fin 1)
    simpa using this
  simp only [Form.solve, example_kVectors, ok_bind, normal_freeSpace, h, hr]
  simp [inverseEps, examplePlate, ok_bind, pure, Except.pure]

theorem example_trans_solve (lib : NumLib) {s : ℝ} (hs : 0 < s) (d : ℝ) :
    (Form.halfTrn ((s : ℂ) ^ 2)).solve lib exampleExpansion d (0, 0) 1 = .ok (exampleTrans s) := by
  have h0 : (s : ℂ) ≠ 0 := by exact_mod_cast hs.ne'
  have h := normal_halfSpace (ι := Fin 1) hs
  simp only [Form.solve, example_kVectors, ok_bind, normal_freeSpace, scatteringTransmission, h,
    normal_transmission hs]
  simp [inverseEps, exampleTrans, ok_bind, pure, Except.pure, h0]

/-- Device, source and solve run, and the stored results are known. -/
theorem example_solve (lib : NumLib) {s : ℝ} (hs : 0 < s) (b : Bool) : ∃ c1 c2 c3 st,
    (exampleCrystal s).setDevice ["a"] (.inl b) = .ok c1 ∧
    c1.setSource 1 1 0 0 0 none = .ok c2 ∧ c2.source = some exampleSource ∧
    SetOrder ("Sref" :: (["a"] ++ ["Strans"])) ["Sref", "a", "Strans"] ∧
    c2.solve lib ["Sref", "a", "Strans"] = .ok c3 ∧
    c3.stacked = some st ∧ st.Stot = ⟨((1 - s) / (1 + s) : ℂ) • 1, -((2 * s / (1 + s) : ℂ) • 1),
      -((2 / (1 + s) : ℂ) • 1), ((s - 1) / (1 + s) : ℂ) • 1⟩ ∧
    stackLayers [scatteringIdentity _, ⟨0, -1, -1, 0⟩, fresnel (Fin 1) s] [true, b, true] = .ok st ∧
    (∃ lr, c3.layers "Sref" = some (.plain (Layer.store lr exampleRef)) ∧ lr.fields = true) ∧
    (∃ l, c3.layers "a" = some (.plain (Layer.store l examplePlate)) ∧ l.fields = b ∧ l.depth = 1 / 4) ∧
    (∃ lt, c3.layers "Strans" = some (.plain (Layer.store lt (exampleTrans s))) ∧ lt.fields = true ∧
      lt.depth = 0) ∧
    Crystal.positions false [0, 1 / 4, 0] = .ok c3.stackPositions ∧
    c3.globalStacking = some ["Sref", "a", "Strans"] ∧ c3.source = some exampleSource ∧
    c3.expansion = exampleExpansion ∧ c3.epsi = 1 ∧ c3.epse = (s : ℂ) ^ 2 := by
  have hf := example_fresh s b
  obtain ⟨c1, h1, hd, hexp, -, hi, hie⟩ := Crystal.setDevice_standard (m := .inl b) hf.void hf.noRef
    hf.noTrans hf.layers (by simp [Crystal.maskList])
  have h2 := example_setSource (c := c1) (by rw [hi]; rfl)
  have ho : SetOrder ("Sref" :: (["a"] ++ ["Strans"])) ["Sref", "a", "Strans"] :=
    ⟨by decide, fun x => by simp⟩
  have hd2 : StandardDevice { c1 with source := some exampleSource } ["a"] [b]
      { Layer.halfInfinite exampleExpansion true 1 with fields := true }
      [{ Layer.uniform exampleExpansion 4 (1 / 4) with fields := b }]
      { Layer.halfInfinite exampleExpansion false ((s : ℂ) ^ 2) with fields := true } 1 ((s : ℂ) ^ 2) := by
    have : ∀ src, StandardDevice { c1 with source := src } ["a"] _ _ _ _ _ _ := fun src =>
      ⟨hd.void, hd.device, hd.stacking, hd.retain, hd.mask_len, hd.ref, hd.ref_form, hd.ref_exp,
        hd.ref_depth, hd.ref_fields, hd.trans, hd.trans_form, hd.trans_exp, hd.trans_depth,
        hd.trans_fields, hd.layers⟩
    have := this (some exampleSource)
    simpa [Crystal.maskList, Crystal.requested, exampleCrystal, Layer.uniform] using this
  obtain ⟨st, hst, hS⟩ := example_stack (Fin 1 ⊕ Fin 1) (fresnel (Fin 1) s) [true, b, true] rfl
  obtain ⟨c3, h3, e1, e2, e3, e4, e5, e6⟩ := hd2.solve_exists (lib := lib) ho (src := exampleSource) rfl
    (rr := exampleRef) (rt := exampleTrans s) (rs := [examplePlate]) (st := st)
    (by rw [show Crystal.expansion { c1 with source := some exampleSource } = exampleExpansion from hexp]
        exact example_ref_solve lib 0)
    (by rw [show Crystal.expansion { c1 with source := some exampleSource } = exampleExpansion from hexp]
        exact .cons (example_plate_solve lib) .nil)
    (by rw [show Crystal.expansion { c1 with source := some exampleSource } = exampleExpansion from hexp]
        exact example_trans_solve lib hs 0)
    hst
  refine ⟨c1, _, c3, st, h1, h2, rfl, ho, h3, e1, hS, hst, ⟨_, e2, rfl⟩, ?_, ⟨_, e4, rfl, rfl⟩, ?_, ?_, ?_, ?_,
    ?_, ?_⟩
  · cases e3 with
    | cons h _ => exact ⟨_, h, rfl, rfl⟩
  · simpa [Layer.uniform] using e5
  · rw [e6]; exact hd.stacking
  · rw [e6]
  · rw [e6]; exact hexp
  · rw [e6]; exact hi.trans rfl
  · rw [e6]; exact hie.trans rfl

/-- Everything runs: device, source, solve, fluxes. -/
theorem example_run (lib : NumLib) {s : ℝ} (hs : 0 < s) (b : Bool) : ∃ c1 c2 c3 f,
    (exampleCrystal s).setDevice ["a"] (.inl b) = .ok c1 ∧
    c1.setSource 1 1 0 0 0 none = .ok c2 ∧ c2.source = some exampleSource ∧
    SetOrder ("Sref" :: (["a"] ++ ["Strans"])) ["Sref", "a", "Strans"] ∧
    c2.solve lib ["Sref", "a", "Strans"] = .ok c3 ∧ c3.poyntingFluxEnd = .ok f := by
  obtain ⟨c1, c2, c3, st, h1, h2, hs2, ho, h3, e1, eS, -, ⟨lr, er, fr⟩, -, ⟨lt, et, ft, -⟩, -, -, hs3,
    hexp, hi, hie⟩ := example_solve lib hs b
  have hpi := Real.pi_pos
  have hk : ∀ t : ℝ, 0 < t → exampleExpansion.kVectors (0, 0) 1 ((t : ℂ) ^ 2) = .ok (0, 0, fun _ => (t : ℂ)) := by
    intro t ht
    have hpi : (Real.pi : ℂ) ≠ 0 := by exact_mod_cast Real.pi_ne_zero
    refine kVectors_eq_ok.2 ⟨one_ne_zero, ?_, ?_, ?_⟩
    · funext i; simp [exampleExpansion]
    · funext i; simp [exampleExpansion]
    · funext i
      have : csqrt ((2 * Real.pi) ^ 2 * (t : ℂ) ^ 2 : ℂ) = 2 * Real.pi * t := by
        have := csqrt_sq_pos (s := 2 * Real.pi * t) (by positivity)
        rw [← mul_pow]
        simpa using this
      simp [exampleExpansion, kzFromKplanar, this]
  have hp : ∀ (t : ℝ) (v : Vec2 1), 0 < t → ∃ r, poyntingFluxes exampleExpansion v (0, 0) 1 1 ((t : ℂ) ^ 2) = .ok r := by
    intro t v ht
    have key : ∀ (F : ℝ × (Fin 1 → ℝ) → Prop) (g : Fin 1 → ℝ), (∀ r, r.2 = g → r.1 = ∑ i, r.2 i → F r) →
        ∃ r, F r := fun F g h => ⟨(∑ i, g i, g), h _ rfl rfl⟩
    refine key _ _ fun r e2 e1 => poyntingFluxes_eq_ok.2 ⟨one_ne_zero, _, _, _, hk t ht,
      fun _ => by exact_mod_cast ht.ne', ?_, e2, e1⟩
    have : csqrt ((2 * Real.pi) ^ 2 : ℂ) = 2 * Real.pi := by
      have := csqrt_sq_pos (s := 2 * Real.pi) (by positivity)
      simpa using this
    have hpc : (Real.pi : ℂ) ≠ 0 := by exact_mod_cast Real.pi_ne_zero
    simp [this, hpc]
  have hinc : ∃ inc, incident 1 1 0 ⟨0, 0, 2 * Real.pi⟩ = .ok inc := by
    refine ⟨_, incident_eq_ok.2 ⟨one_pos, by simp [polNorm], _, _, polarisations_small (by simp), rfl⟩⟩
  obtain ⟨inc, hinc⟩ := hinc
  obtain ⟨T, hT⟩ := hp s ((1 * st.Stot.s21) *ᵥ ((1 : Mat2 1)⁻¹ *ᵥ inc)) hs
  obtain ⟨R, hR⟩ := hp 1 ((1 * st.Stot.s11) *ᵥ ((1 : Mat2 1)⁻¹ *ᵥ inc)) one_pos
  refine ⟨c1, c2, c3, _, h1, h2, hs2, ho, h3, Crystal.poyntingFluxEnd_eq_ok.2
    ⟨st, exampleSource, inc, _, _, 1, 1, T, R, e1, hs3, hinc, er, ?_, by simp, et, ?_, ?_, ?_, rfl⟩⟩
  · simp [AnyLayer.W, Layer.store, fr, exampleRef]
  · simp [AnyLayer.W, Layer.store, ft, exampleTrans]
  · rw [hexp, hi, hie]; exact hT
  · rw [hexp, hi]; simpa [exampleSource] using hR

/-- A library whose `eig` returns a diagonalisation when there is one. -/
noncomputable def exampleLib : NumLib where
  eig := fun N M =>
    open Classical in
    if h : ∃ p : (Fin N ⊕ Fin N → ℂ) × Matrix (Fin N ⊕ Fin N) (Fin N ⊕ Fin N) ℂ,
      M * p.2 = p.2 * diagonal p.1 ∧ p.2.det ≠ 0 then .ok h.choose else .error .linAlg
  jv1 := fun _ => 0

theorem exampleLib_contract (N : ℕ) : EigContract (exampleLib.eig N) := by
  intro M lam W h
  simp only [exampleLib] at h
  split_ifs at h with hx
  have := hx.choose_spec.1
  rw [Except.ok.injEq] at h
  rw [h] at this
  exact this

end Khepri
