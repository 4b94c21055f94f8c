import Verif.Lemmas.ExampleTwistedDevice
import Verif.Lemmas.ExampleFields
import Verif.Lemmas.ExampleEmpty
import Verif.Lemmas.TwistedFields

set_option linter.unusedSectionVars false

/-!
# Example: fields of a stack of layers of two lattices at oblique incidence
-/

namespace Khepri

open Matrix

section
variable {n : Type} [Fintype n] [DecidableEq n]

/-- Any layer half a wave thick for all its modes is `(0, -1, -1, 0)`. -/
theorem halfWave_any {W V W0 V0 : Matrix n n ℂ} {lam : n → ℂ} {d k0 : ℝ} (hW : W = 1) (hW0 : W0 = 1)
    (hV : V.det ≠ 0) (hV0 : V0.det ≠ 0) (hA : (1 + V⁻¹ * V0).det ≠ 0)
    (hX : ∀ i, Complex.exp (-(lam i * ((d * k0 : ℝ) : ℂ))) = -1) :
    buildScatmat W V W0 V0 lam d k0 = .ok ⟨0, -1, -1, 0⟩ := by
  subst hW hW0
  have eX : propX lam (d * k0) = -1 := by
    rw [propX, ← diagonal_one, diagonal_neg, diagonal_eq_diagonal_iff]
    exact fun i => hX i
  set D := V⁻¹ * V0 with hD
  have hDd : D.det ≠ 0 := by
    rw [hD, det_mul, det_nonsing_inv, Ring.inverse_eq_inv']
    exact mul_ne_zero (inv_ne_zero hV) hV0
  have hAi : (1 + D)⁻¹ * (1 + D) = 1 := nonsing_inv_mul _ (isUnit_iff_ne_zero.2 hA)
  have hAi' : (1 + D) * (1 + D)⁻¹ = 1 := mul_nonsing_inv _ (isUnit_iff_ne_zero.2 hA)
  have hT : ((1 + D) - (1 - D) * (1 + D)⁻¹ * (1 - D)).det ≠ 0 := by
    have hcomm : (1 + D) * (1 - D) = (1 - D) * (1 + D) := by
      noncomm_ring
    have e : (1 + D) * ((1 + D) - (1 - D) * (1 + D)⁻¹ * (1 - D)) = (4 : ℂ) • D := by
      have : (1 + D) * ((1 - D) * (1 + D)⁻¹ * (1 - D)) = (1 - D) * (1 - D) := by
        rw [← Matrix.mul_assoc, ← Matrix.mul_assoc, hcomm, Matrix.mul_assoc (1 - D), hAi', Matrix.mul_one]
      rw [Matrix.mul_sub, this, show (4 : ℂ) • D = D + D + D + D by
        rw [show (4 : ℂ) = 1 + 1 + 1 + 1 by norm_num]; simp only [add_smul, one_smul]]
      noncomm_ring
    intro h0
    have := congrArg det e
    rw [det_mul, h0, mul_zero, det_smul] at this
    exact mul_ne_zero (pow_ne_zero _ (by norm_num)) hDd this.symm
  set T := (1 + D) - (1 - D) * (1 + D)⁻¹ * (1 - D) with hTd
  have hTi : T⁻¹ * T = 1 := nonsing_inv_mul _ (isUnit_iff_ne_zero.2 hT)
  refine buildScatmat_eq_ok.2 ⟨1 + D, 1 - D, -1, T, by simp [hD], by simp [hD], eX.symm, ?_, by simp, hV, hA, hT,
    ?_, ?_, rfl, rfl⟩
  · rw [hTd]
    simp only [Matrix.mul_neg, Matrix.mul_one, Matrix.neg_mul, Matrix.one_mul, neg_neg]
  · simp only [Matrix.mul_neg, Matrix.mul_one, Matrix.neg_mul, Matrix.one_mul, neg_neg, Matrix.mul_assoc, hAi, sub_self,
      Matrix.mul_zero]
  · have : -1 * ((1 + D) - (1 - D) * ((1 + D)⁻¹ * (1 - D))) = -T := by
      rw [hTd, neg_one_mul, Matrix.mul_assoc]
    rw [this, Matrix.mul_neg, hTi]

/-- Brewster's angle. -/
theorem brewster_slab {ι : Type} [Fintype ι] [DecidableEq ι] {κ : ℝ} (hκ : κ ^ 2 = 3 / 4) : ∃ V0 V,
    freeSpaceEigenmodes (fun _ : ι => (κ : ℂ)) (fun _ => ((0 : ℝ) : ℂ)) = .ok (1, V0) ∧
    solveUniformLayer (fun _ : ι => (κ : ℂ)) (fun _ => ((0 : ℝ) : ℂ)) 3 =
      .ok (1, V, stack2 fun _ => Complex.I * ((3 / 2 : ℝ) : ℂ)) ∧
    buildScatmat 1 V 1 V0 (stack2 fun _ => Complex.I * ((3 / 2 : ℝ) : ℂ)) (1 / 3) (2 * Real.pi / 1) =
      .ok ⟨0, -1, -1, 0⟩ := by
  have hκc : (κ : ℂ) ^ 2 = 3 / 4 := by
    rw [← Complex.ofReal_pow, hκ]; norm_num
  have hκm : (κ : ℂ) * κ = 3 / 4 := by rw [← sq]; exact hκc
  have k0 : kzMasked (1 - (κ : ℂ) ^ 2 - ((0 : ℝ) : ℂ) ^ 2) = ((1 / 2 : ℝ) : ℂ) := by
    rw [← kzMasked_sq_pos (by norm_num : (0 : ℝ) < 1 / 2), hκc]; norm_num
  have k1 : kzMasked (3 - (κ : ℂ) ^ 2 - ((0 : ℝ) : ℂ) ^ 2) = ((3 / 2 : ℝ) : ℂ) := by
    rw [← kzMasked_sq_pos (by norm_num : (0 : ℝ) < 3 / 2), hκc]; norm_num
  have hI := Complex.I_ne_zero
  let U (a b : ℂ) : Matrix (ι ⊕ ι) (ι ⊕ ι) ℂ := fromBlocks 0 (diagonal fun _ => a) (diagonal fun _ => b) 0
  have q : ∀ e x : ℂ, (Matrix.of fun i j => qBlock (fun _ : ι => (κ : ℂ)) (fun _ => ((0 : ℝ) : ℂ)) e i j /
      stack2 (fun _ : ι => x) j) = U ((e - 3 / 4) / x) (-e / x) := by
    intro e x
    ext (i | i) (j | j) <;> by_cases h : i = j <;>
      simp [U, qBlock, stack2, h, hκm]
  have hU : ∀ a b : ℂ, a ≠ 0 → b ≠ 0 → U a b * U b⁻¹ a⁻¹ = 1 := by
    intro a b ha hb
    simp [U, fromBlocks_multiply, diagonal_mul_diagonal, ha, hb]
  have dU : ∀ a b : ℂ, a ≠ 0 → b ≠ 0 → (U a b).det ≠ 0 := by
    intro a b ha hb h0
    have := congrArg det (hU a b ha hb)
    rw [det_mul, h0, zero_mul, det_one] at this
    exact zero_ne_one this
  refine ⟨U ((1 - 3 / 4) / (Complex.I * ((1 / 2 : ℝ) : ℂ))) (-1 / (Complex.I * ((1 / 2 : ℝ) : ℂ))),
    U ((3 - 3 / 4) / (Complex.I * ((3 / 2 : ℝ) : ℂ))) (-3 / (Complex.I * ((3 / 2 : ℝ) : ℂ))), ?_, ?_, ?_⟩
  · refine freeSpaceEigenmodes_eq_ok.2 ⟨fun i => by rw [hκc]; norm_num, rfl, ?_⟩
    simp only [k0]
    rw [q]
  · refine solveUniformLayer_eq_ok.2 ⟨by norm_num, fun i => by rw [hκc]; norm_num, rfl, ?_, ?_⟩
    · simp only [k1]
    · simp only
      rw [q]
  · have hhalf : Complex.I * ((1 / 2 : ℝ) : ℂ) ≠ 0 := mul_ne_zero hI (by norm_num)
    have hthr : Complex.I * ((3 / 2 : ℝ) : ℂ) ≠ 0 := mul_ne_zero hI (by norm_num)
    have a0 : ((1 : ℂ) - 3 / 4) / (Complex.I * ((1 / 2 : ℝ) : ℂ)) ≠ 0 := div_ne_zero (by norm_num) hhalf
    have b0 : (-1 : ℂ) / (Complex.I * ((1 / 2 : ℝ) : ℂ)) ≠ 0 := div_ne_zero (by norm_num) hhalf
    have a1 : ((3 : ℂ) - 3 / 4) / (Complex.I * ((3 / 2 : ℝ) : ℂ)) ≠ 0 := div_ne_zero (by norm_num) hthr
    have b1 : (-3 : ℂ) / (Complex.I * ((3 / 2 : ℝ) : ℂ)) ≠ 0 := div_ne_zero (by norm_num) hthr
    refine halfWave_any rfl rfl (dU _ _ a1 b1) (dU _ _ a0 b0) ?_ ?_
    · rw [Matrix.inv_eq_right_inv (hU _ _ a1 b1)]
      have e : (1 : Matrix (ι ⊕ ι) (ι ⊕ ι) ℂ) +
          U ((-3 : ℂ) / (Complex.I * ((3 / 2 : ℝ) : ℂ)))⁻¹ (((3 : ℂ) - 3 / 4) / (Complex.I * ((3 / 2 : ℝ) : ℂ)))⁻¹ *
            U (((1 : ℂ) - 3 / 4) / (Complex.I * ((1 / 2 : ℝ) : ℂ))) (-1 / (Complex.I * ((1 / 2 : ℝ) : ℂ))) =
          diagonal (Sum.elim (fun _ => (2 : ℂ)) fun _ => 4 / 3) := by
        simp only [U, fromBlocks_multiply, diagonal_mul_diagonal, Matrix.zero_mul, Matrix.mul_zero, add_zero, zero_add]
        rw [← fromBlocks_one, fromBlocks_add, ← fromBlocks_diagonal]
        congr 1
        · rw [← diagonal_one, diagonal_add]
          congr 1
          funext i
          push_cast
          field_simp
          norm_num
        · simp
        · simp
        · rw [← diagonal_one, diagonal_add]
          congr 1
          funext i
          push_cast
          field_simp
          norm_num
      rw [e, det_diagonal]
      exact Finset.prod_ne_zero_iff.2 (by rintro (i | i) _ <;> norm_num)
    · have : ∀ i : ι ⊕ ι, -(stack2 (fun _ : ι => Complex.I * ((3 / 2 : ℝ) : ℂ)) i * ((1 / 3 * (2 * Real.pi / 1) : ℝ) : ℂ)) =
          -(Real.pi * Complex.I) := by
        rintro (i | i) <;> simp only [stack2, Sum.elim_inl, Sum.elim_inr] <;> push_cast <;> ring
      intro i
      rw [this, Complex.exp_neg, Complex.exp_pi_mul_I]
      norm_num

end

theorem TwistedLayer.permittivity_unique {M : ℕ} {jv1 : ℝ → ℝ} {lhs rhs : Expansion M} {l : TwistedLayer M}
    {C C' : Matrix (Fin (M * M)) (Fin (M * M)) ℂ} (h : l.Permittivity jv1 lhs rhs C)
    (h' : l.Permittivity jv1 lhs rhs C') : C = C' := by
  cases l with
  | uniform eps d => exact Eq.trans h (Eq.symm h')
  | first l =>
    obtain ⟨C1, h1, h2⟩ := h
    obtain ⟨C1', h1', h2'⟩ := h'
    obtain rfl := Khepri.permittivity_unique h1 h1'
    ext p q
    obtain ⟨i, r, rfl⟩ := exists_jointPos 1 p
    obtain ⟨j, c, rfl⟩ := exists_jointPos 1 q
    simp only [jointPos, one_ne_zero, if_false]
    rw [h2, h2']
  | second l =>
    obtain ⟨C1, h1, h2⟩ := h
    obtain ⟨C1', h1', h2'⟩ := h'
    obtain rfl := Khepri.permittivity_unique h1 h1'
    ext p q
    obtain ⟨i, r, rfl⟩ := exists_jointPos 0 p
    obtain ⟨j, c, rfl⟩ := exists_jointPos 0 q
    simp only [jointPos, if_true]
    rw [h2, h2']

theorem TwistedEquations.unique {M : ℕ} {jv1 : ℝ → ℝ} {lhs rhs : Expansion M} {kx ky : Fin (M * M) → ℝ} {k0 : ℝ}
    {Ls : List (TwistedLayer M)} {Ms Ms' : List (Mat2 (M * M) × Mat2 (M * M) × ℝ)}
    (h : TwistedEquations jv1 lhs rhs kx ky k0 Ls Ms) (h' : TwistedEquations jv1 lhs rhs kx ky k0 Ls Ms') :
    Ms = Ms' := by
  refine forall₂_functional ?_ h h'
  rintro l _ _ ⟨C, h1, -, rfl⟩ ⟨C', h2, -, rfl⟩
  rw [TwistedLayer.permittivity_unique h1 h2]

/-- A second unit square lattice with one order. -/
noncomputable def exampleExpansion' : Expansion 1 := { exampleExpansion with tag := 1 }

/-- A slab of permittivity 3, added as a layer of the first of two lattices, at Brewster's angle: everything runs, the
slab lets everything through, and nothing is clamped. -/
theorem brewster_run (lib : NumLib) {κ : ℝ} (hκ : κ ^ 2 = 3 / 4) : ∃ (se : SumExpansion 1) (a c c1 c2 c3 : Crystal (1 * 1))
    (st : Stacked (Fin (1 * 1) ⊕ Fin (1 * 1))),
    exampleExpansion.add 2 exampleExpansion' = .ok se ∧ (∀ i, orderKx se.exp (2 * Real.pi * κ, 0) 1 i = κ) ∧
    (∀ i, orderKy se.exp (2 * Real.pi * κ, 0) 1 i = 0) ∧
    a = { expansion := se.exp, layers := fun _ => none } ∧
    a.addExtended se "a" (Layer.uniform exampleExpansion 3 (1 / 3)) = .ok c ∧
    TwistedDevice se c ["a"] (.inl true) [.first (Layer.uniform exampleExpansion 3 (1 / 3))] ((1 : ℝ) : ℂ) ((1 : ℝ) : ℂ) ∧
    c.setDevice ["a"] (.inl true) = .ok c1 ∧
    c1.setSource 1 1 0 0 0 (some (((2 * Real.pi * κ : ℝ) : ℂ), ((0 : ℝ) : ℂ))) = .ok c2 ∧
    c2.source = some (obliqueSource κ 1 0) ∧
    SetOrder ("Sref" :: (["a"] ++ ["Strans"])) ["Sref", "a", "Strans"] ∧
    c2.solve lib ["Sref", "a", "Strans"] = .ok c3 ∧ c3.stacked = some st ∧ st.Stot = ⟨0, -1, -1, 0⟩ ∧
    ∀ z, Unclamped c3 z := by
  obtain ⟨se, hse⟩ := add_ok 2 exampleExpansion exampleExpansion' rfl rfl
  have hne : exampleExpansion.tag ≠ exampleExpansion'.tag := by simp [exampleExpansion, exampleExpansion']
  obtain ⟨-, -, hl, hr, -⟩ := add_eq_ok hse
  have hg : ∀ p, se.exp.g p = (0, 0) := by
    intro p
    obtain ⟨i, j, rfl⟩ := exists_jointPos 0 p
    rw [joint_rhs hse i j]
    simp [exampleExpansion, exampleExpansion']
  have hx : ∀ i, orderKx se.exp (2 * Real.pi * κ, 0) 1 i = κ := by
    intro i
    have : (2 * Real.pi) ≠ 0 := by positivity
    simp only [orderKx, hg]
    field_simp; ring
  have hy : ∀ i, orderKy se.exp (2 * Real.pi * κ, 0) 1 i = 0 := by
    intro i
    simp [orderKy, hg]
  let X (f : Bool) : ExtLayer (1 * 1) :=
    { M := 1, hM := rfl, expansion := se.exp, base := { Layer.uniform exampleExpansion 3 (1 / 3) with fields := f },
      mode := 1, gs := List.ofFn se.rhs.g, depth := 1 / 3, fields := f }
  have hA : ∀ f, ExtLayer.make se { Layer.uniform exampleExpansion 3 (1 / 3) with fields := f } = .ok (X f) := by
    intro f
    rw [ExtLayer.make, if_pos (by rw [hl]; rfl)]
    rfl
  let a : Crystal (1 * 1) := { expansion := se.exp, layers := fun _ => none }
  let c : Crystal (1 * 1) := a.setLayer "a" (.ext (X false))
  have hca : a.addExtended se "a" (Layer.uniform exampleExpansion 3 (1 / 3)) = .ok c := by
    have := hA false
    rw [Crystal.addExtended,
      show Layer.uniform exampleExpansion 3 (1 / 3) = { Layer.uniform exampleExpansion 3 (1 / 3) with fields := false } from rfl,
      this]
    rfl
  have hla : c.layers "a" = some (.ext (X false)) := by simp [c, Crystal.setLayer]
  have hc : TwistedDevice se c ["a"] (.inl true) [.first (Layer.uniform exampleExpansion 3 (1 / 3))]
      ((1 : ℝ) : ℂ) ((1 : ℝ) : ℂ) :=
    { space := rfl
      two := by rw [hl, hr]; exact hne
      void := rfl
      epsi := by simp [c, a, Crystal.setLayer]
      epse := by simp [c, a, Crystal.setLayer]
      noRef := by simp [c, a, Crystal.setLayer]
      noTrans := by simp [c, a, Crystal.setLayer]
      layers := .cons ⟨hl.symm, by simp [Layer.uniform, Form.isLayer], _, hA false, hla⟩ .nil
      mask := by simp }
  obtain ⟨c1, h1, hd, hexp, -, hi, hie⟩ := Crystal.setDevice_any (m := .inl true) hc.void hc.noRef hc.noTrans
    (As := [.ext (X false)]) (.cons hla .nil) (by simp [Crystal.maskList])
  have hi1 : c1.epsi = 1 := by rw [hi]; simpa using hc.epsi
  have hexp1 : c1.expansion = se.exp := hexp
  have h2 : c1.setSource 1 1 0 0 0 (some (((2 * Real.pi * κ : ℝ) : ℂ), ((0 : ℝ) : ℂ))) =
      .ok { c1 with source := some (obliqueSource κ 1 0) } := by
    refine Crystal.setSource_eq_ok.2 ⟨one_ne_zero, _, rfl, ?_⟩
    simp only [obliqueSource, hi1]
  have hen : List.zipWith (fun x (a : AnyLayer (1 * 1)) => a.enable (Crystal.requested x (["a"].zip
      (Crystal.maskList ["a"] (.inl true))))) ["a"] [.ext (X false)] = [.ext (X true)] := by
    simp [Crystal.maskList, Crystal.requested, AnyLayer.enable, X, Layer.uniform]
  rw [hen] at hd
  have hd2 : AnyDevice { c1 with source := some (obliqueSource κ 1 0) } ["a"] _ _ _ _ _ _ :=
    ⟨hd.void, hd.stacking, hd.retain, hd.mask_len, hd.ref, hd.ref_form, hd.ref_exp, hd.ref_fields, hd.trans,
      hd.trans_form, hd.trans_exp, hd.trans_fields, hd.layers, hd.ref_depth, hd.trans_depth⟩
  have ho : SetOrder ("Sref" :: (["a"] ++ ["Strans"])) ["Sref", "a", "Strans"] := ⟨by decide, fun x => by simp⟩
  have hpos : (0 : ℝ) < 1 - κ ^ 2 := by rw [hκ]; norm_num
  have hg' : ∀ i, 1 - orderKx se.exp (2 * Real.pi * κ, 0) 1 i ^ 2 - orderKy se.exp (2 * Real.pi * κ, 0) 1 i ^ 2 ≠ 0 := by
    intro i
    rw [hx, hy]
    simpa using hpos.ne'
  obtain ⟨rv, hv1, hv2, hvS, hvW, hvL⟩ := vacuum_halves lib se.exp (wl := 1) one_ne_zero (2 * Real.pi * κ, 0) hg'
  -- the layer
  obtain ⟨V0, V, b1, b2, b3⟩ := brewster_slab (ι := Fin (1 * 1)) hκ
  have hk : ∃ kz, se.exp.kVectors (((2 * Real.pi * κ : ℝ) : ℂ), ((0 : ℝ) : ℂ)) 1 1 =
      .ok ((fun _ => (κ : ℂ)), (fun _ => ((0 : ℝ) : ℂ)), kz) := by
    refine ⟨_, kVectors_eq_ok.2 ⟨one_ne_zero, ?_, ?_, rfl⟩⟩
    · funext i
      have := congrArg (fun x : ℝ => (x : ℂ)) (hx i).symm
      simp only [orderKx, Complex.ofReal_div, Complex.ofReal_add] at this ⊢
      exact this
    · funext i
      have := congrArg (fun x : ℝ => (x : ℂ)) (hy i).symm
      simp only [orderKy, Complex.ofReal_div, Complex.ofReal_add] at this ⊢
      exact this
  obtain ⟨kz, hk⟩ := hk
  have hR : (Form.uniform 3).solve lib se.exp (1 / 3) (((2 * Real.pi * κ : ℝ) : ℂ), ((0 : ℝ) : ℂ)) 1 =
      .ok ⟨1, V, stack2 fun _ => Complex.I * ((3 / 2 : ℝ) : ℂ), ⟨0, -1, -1, 0⟩, .num (1 / 3)⟩ := by
    simp only [Form.solve, hk, ok_bind, b1, b2, b3]
    simp [inverseEps, ok_bind, pure, Except.pure]
  obtain ⟨x', hx', hS, -, -, hL⟩ := (C28_uniform hse hne lib _ 1 3 (1 / 3) true ⟨0, -1, -1, 0⟩ _ _ _ (Or.inl rfl)
    (hA true)).2 ⟨_, Layer.solve_eq_ok.2 ⟨_, hR, rfl⟩, rfl, rfl, rfl, rfl⟩
  have ha1 : AnyLayer.solve lib (((2 * Real.pi * κ : ℝ) : ℂ), ((0 : ℝ) : ℂ)) 1 (.ext (X true)) = .ok (.ext x') := by
    simp only [AnyLayer.solve, hx', ok_bind, pure, Except.pure]
  obtain ⟨st, hst, hS0⟩ := example_stack (Fin (1 * 1) ⊕ Fin (1 * 1)) (scatteringIdentity _)
    (true :: (Crystal.maskList ["a"] (.inl true) ++ [true])) (by simp [Crystal.maskList])
  have hepi : c.epsi = 1 := by simpa using hc.epsi
  have hepe : c.epse = 1 := by simpa using hc.epse
  obtain ⟨c3, h3, e1, e2, e3, e4, e5⟩ := hd2.solve_exists (lib := lib) ho (src := obliqueSource κ 1 0) rfl
    (rr := rv) (rt := rv) (As' := [.ext x']) (Ss := [⟨0, -1, -1, 0⟩]) (st := st)
    (by rw [hepi]; show Form.solve lib c1.expansion _ _ _ _ = _; rw [hexp1]; simpa [obliqueSource, Layer.halfInfinite] using hv1)
    (.cons ha1 .nil) (.cons hS .nil)
    (by rw [hepe]; show Form.solve lib c1.expansion _ _ _ _ = _; rw [hexp1]; simpa [obliqueSource, Layer.halfInfinite] using hv2)
    (by rw [hvS]; exact hst)
  refine ⟨se, a, c, c1, _, c3, st, hse, hx, hy, rfl, hca, hc, h1, h2, rfl, ho, h3, e1, ?_, ?_⟩
  · rw [hS0]; simp [scatteringIdentity]
  · have himag : ∀ (x : ℝ) (i : Fin (1 * 1) ⊕ Fin (1 * 1)), (stack2 (fun _ : Fin (1 * 1) => Complex.I * (x : ℂ)) i).re = 0 := by
      rintro x (i | i) <;> simp [stack2]
    have hvL' : ∀ i, (rv.L i).re = 0 := by
      intro i
      rw [hvL]
      simp only [hx, hy]
      rw [show (1 : ℝ) - κ ^ 2 - 0 ^ 2 = 1 - κ ^ 2 by ring, outerKz_pos hpos]
      exact himag _ i
    refine unclamped_of_imag (names := ["Sref", "a", "Strans"]) (by rw [e4]; exact hd.stacking) ?_
    intro y hy l L hl hL' i
    simp only [List.mem_cons, List.not_mem_nil, or_false] at hy
    rcases hy with rfl | rfl | rfl
    · rw [e2, Option.some.injEq] at hl
      subst hl
      simp [AnyLayer.L, Layer.store] at hL'
      rw [← hL']; exact hvL' i
    · cases e5 with
      | cons e5 _ =>
        rw [e5, Option.some.injEq] at hl
        subst hl
        simp only [AnyLayer.L] at hL'
        rw [hL] at hL'
        simp only [Layer.store, if_true, Option.some.injEq] at hL'
        rw [← hL']; exact himag _ i
    · rw [e3, Option.some.injEq] at hl
      subst hl
      simp [AnyLayer.L, Layer.store] at hL'
      rw [← hL']; exact hvL' i

end Khepri
