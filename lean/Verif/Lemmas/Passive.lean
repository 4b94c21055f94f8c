import Verif.Lemmas.AbsorbDevice

set_option linter.unusedSectionVars false

/-!
Devices without gain, when every order propagates in vacuum: waves between the layers carry power both ways,
hence nothing can circulate without leaking.
-/

namespace Khepri

open Matrix

section
variable {n : Type} [Fintype n] [DecidableEq n] (φ : Port n → ℝ)

/-- An element that gives no power, and lets every field through. -/
structure Passes (S : SMat n) : Prop where
  le : ∀ p q, Scatters S p q → φ q ≤ φ p
  right : ∀ p, Scatters S p ⟨0, 0⟩ → p = ⟨0, 0⟩
  left : ∀ q, Scatters S ⟨0, 0⟩ q → q = ⟨0, 0⟩

variable {φ}

theorem leftFold_passive (hf : ∀ x, 0 ≤ φ ⟨x, 0⟩) (l : List (SMat n)) : ∀ P : SMat n,
    LeftPassive φ P → (∀ S ∈ l, Passes φ S) → (LeftStrict φ P ∨ ∀ x, φ ⟨x, 0⟩ ≤ 0 → x = 0) →
    ∃ T, leftFold P l = .ok T ∧ LeftPassive φ T ∧ (LeftStrict φ P → LeftStrict φ T) := by
  induction l with
  | nil => intro P hP _ _; exact ⟨P, rfl, hP, id⟩
  | cons S l ih =>
    intro P hP hS hor
    have hS0 := hS S (by simp)
    obtain ⟨T, hT⟩ := redheffer_exists (A := P) (B := S) fun x hx => by
      have h1 := circulates_left hx
      have h2 := circulates_right hx
      rcases hor with hst | hdef
      · exact hst _ _ h1 rfl ((hf _).trans (hS0.le _ _ h2))
      · have h3 := hdef _ ((hS0.le _ _ h2).trans (hP _ _ h1 rfl))
        rw [h3] at h2
        exact hS0.right _ h2
    have hTp : LeftPassive φ T := by
      intro p q hpq hp
      obtain ⟨m, h1, h2⟩ := (scatters_redheffer hT p q).1 hpq
      exact (hS0.le _ _ h2).trans (hP _ _ h1 hp)
    have hTs : LeftStrict φ P → LeftStrict φ T := by
      intro hPs p q hpq hp hq
      obtain ⟨m, h1, h2⟩ := (scatters_redheffer hT p q).1 hpq
      have := hPs _ _ h1 hp (hq.trans (hS0.le _ _ h2))
      subst this
      exact hS0.left _ h2
    obtain ⟨T', h1, h2, h3⟩ := ih T hTp (fun S' hS' => hS S' (by simp [hS'])) (hor.imp_left hTs)
    exact ⟨T', by simp only [leftFold, hT, ok_bind, h1], h2, fun h => h3 (hTs h)⟩

theorem revFold_passive (hb : ∀ y, φ ⟨0, y⟩ ≤ 0) (l : List (SMat n)) : ∀ P : SMat n,
    RightPassive φ P → (∀ S ∈ l, Passes φ S) → (RightStrict φ P ∨ ∀ y, 0 ≤ φ ⟨0, y⟩ → y = 0) →
    ∃ T, revFold P l = .ok T ∧ RightPassive φ T ∧ (RightStrict φ P → RightStrict φ T) := by
  induction l with
  | nil => intro P hP _ _; exact ⟨P, rfl, hP, id⟩
  | cons S l ih =>
    intro P hP hS hor
    have hS0 := hS S (by simp)
    obtain ⟨T, hT⟩ := redheffer_exists (A := S) (B := P) fun x hx => by
      have h1 := circulates_right hx
      have h2 := circulates_left hx
      rcases hor with hst | hdef
      · exact hst _ _ h1 rfl ((hS0.le _ _ h2).trans (hb _))
      · have h3 := hdef _ ((hP _ _ h1 rfl).trans (hS0.le _ _ h2))
        rw [h3] at h2
        exact hS0.left _ h2
    have hTp : RightPassive φ T := by
      intro p q hpq hp
      obtain ⟨m, h1, h2⟩ := (scatters_redheffer hT p q).1 hpq
      exact (hP _ _ h2 hp).trans (hS0.le _ _ h1)
    have hTs : RightStrict φ P → RightStrict φ T := by
      intro hPs p q hpq hp hq
      obtain ⟨m, h1, h2⟩ := (scatters_redheffer hT p q).1 hpq
      have := hPs _ _ h2 hp ((hS0.le _ _ h1).trans hq)
      subst this
      exact hS0.right _ h1
    obtain ⟨T', h1, h2, h3⟩ := ih T hTp (fun S' hS' => hS S' (by simp [hS'])) (hor.imp_left hTs)
    exact ⟨T', by simp only [revFold, hT, ok_bind, h1], h2, fun h => h3 (hTs h)⟩

/-- A stack of passive elements between two passive ends can be cascaded when both ends let all power out, or when one
does and the waves between the elements all carry power. -/
theorem stackLayers_passive (hb : ∀ y, φ ⟨0, y⟩ ≤ 0) (hf : ∀ x, 0 ≤ φ ⟨x, 0⟩) {Sr St : SMat n}
    {l : List (SMat n)} (hr : LeftPassive φ Sr) (ht : RightPassive φ St) (hl : ∀ S ∈ l, Passes φ S)
    (hs : (LeftStrict φ Sr ∧ RightStrict φ St) ∨ ((LeftStrict φ Sr ∨ RightStrict φ St) ∧
      (∀ x, φ ⟨x, 0⟩ ≤ 0 → x = 0) ∧ ∀ y, 0 ≤ φ ⟨0, y⟩ → y = 0)) {mask : List Bool}
    (hm : mask.length = (Sr :: (l ++ [St])).length) : ∃ st, stackLayers (Sr :: (l ++ [St])) mask = .ok st := by
  obtain ⟨T1, e1, p1, s1⟩ := leftFold_passive hf l Sr hr hl (hs.imp (·.1) (·.2.1))
  obtain ⟨T2, e2, p2, s2⟩ := revFold_passive hb l.reverse St ht (fun S hS => hl S (by simpa using hS))
    (hs.imp (·.2) (·.2.2))
  replace hs : LeftStrict φ Sr ∨ RightStrict φ St := hs.elim (fun h => Or.inl h.1) (·.1)
  obtain ⟨T, hT⟩ := redheffer_exists (A := T1) (B := St) fun x hx => by
    rcases hs with hs | hs
    · exact s1 hs _ _ (circulates_left hx) rfl (ht _ _ (circulates_right hx) rfl)
    · exact hs _ _ (circulates_right hx) rfl (p1 _ _ (circulates_left hx) rfl)
  obtain ⟨T', hT'⟩ := redheffer_exists (A := Sr) (B := T2) fun x hx => by
    rcases hs with hs | hs
    · exact hs _ _ (circulates_left hx) rfl (p2 _ _ (circulates_right hx) rfl)
    · exact s2 hs _ _ (circulates_right hx) rfl (hr _ _ (circulates_left hx) rfl)
  have hL : leftFold (scatteringIdentity n) (Sr :: (l ++ [St])) = .ok T := by
    simp only [leftFold, redheffer_id_left, ok_bind, leftFold_append, e1, hT]
  have hR : revFold (scatteringIdentity n) (Sr :: (l ++ [St])).reverse = .ok T' := by
    simp only [List.reverse_cons, List.reverse_append, List.reverse_nil, List.nil_append, List.cons_append,
      revFold, redheffer_id_right, ok_bind, revFold_append, e2, hT']
  have hE := leftFold_revFold hL hR
  rw [redheffer_id_left, Except.ok.injEq] at hE
  subst hE
  obtain ⟨st, h, -⟩ := (stackLayers_exists hm T').2 ⟨hL, hR⟩
  exact ⟨st, h⟩

end

section
variable {ι : Type} [Fintype ι] [DecidableEq ι] {kx ky : ι → ℝ}

theorem waveNorm_pos {kz : ι → ℂ} {s : ι ⊕ ι → ℂ} {i : ι} (h : waveNorm kx ky kz s i ≤ 0) :
    s (.inl i) = 0 ∧ s (.inr i) = 0 := by
  unfold waveNorm at h
  have h1 := sq_nonneg ‖s (.inl i)‖
  have h2 := sq_nonneg ‖s (.inr i)‖
  have h3 := sq_nonneg ‖-(kx i * s (.inl i) + ky i * s (.inr i)) / kz i‖
  constructor
  · have : ‖s (.inl i)‖ ^ 2 = 0 := by linarith
    simpa using this
  · have : ‖s (.inr i)‖ ^ 2 = 0 := by linarith
    simpa using this

/-- Waves of propagating orders going forward carry power. -/
theorem fluxZ_fwd_zero {er : ℝ} (hg : ∀ i, 0 < er - kx i ^ 2 - ky i ^ 2) {x : ι ⊕ ι → ℂ}
    (h : fluxZ (outerField kx ky er ⟨x, 0⟩) ≤ 0) : x = 0 := by
  rw [fluxZ_outer (fun i => (hg i).ne') fun i _ => Or.inr (by simp)] at h
  have hz : ∀ i, waveNorm kx ky (fun i => outerKz (er - kx i ^ 2 - ky i ^ 2)) (0 : ι ⊕ ι → ℂ) i = 0 := by
    intro i; simp [waveNorm]
  simp only [hz, sub_zero] at h
  have hn : ∀ i ∈ (Finset.univ : Finset ι), 0 ≤ (outerKz (er - kx i ^ 2 - ky i ^ 2)).re *
      waveNorm kx ky (fun i => outerKz (er - kx i ^ 2 - ky i ^ 2)) x i := fun i _ =>
    mul_nonneg (outerKz_re_nonneg _) (waveNorm_nonneg ..)
  have h0 := (Finset.sum_eq_zero_iff_of_nonneg hn).1 (le_antisymm h (Finset.sum_nonneg hn))
  have key : ∀ i, x (.inl i) = 0 ∧ x (.inr i) = 0 := by
    intro i
    have hre : (outerKz (er - kx i ^ 2 - ky i ^ 2)).re ≠ 0 := by
      rw [outerKz_pos (hg i), Complex.ofReal_re]
      exact (Real.sqrt_pos.2 (hg i)).ne'
    exact waveNorm_pos ((mul_eq_zero.1 (h0 i (Finset.mem_univ _))).resolve_left hre).le
  funext i
  rcases i with i | i
  · exact (key i).1
  · exact (key i).2

theorem fluxZ_bwd_zero {er : ℝ} (hg : ∀ i, 0 < er - kx i ^ 2 - ky i ^ 2) {y : ι ⊕ ι → ℂ}
    (h : 0 ≤ fluxZ (outerField kx ky er ⟨0, y⟩)) : y = 0 := by
  refine fluxZ_fwd_zero hg ?_
  rw [fluxZ_outer (fun i => (hg i).ne') fun i _ => Or.inl (by simp)] at h
  rw [fluxZ_outer (fun i => (hg i).ne') fun i _ => Or.inr (by simp)]
  have e : ∀ a b : ι → ℝ, ∑ i, (outerKz (er - kx i ^ 2 - ky i ^ 2)).re * (a i - b i) =
      -∑ i, (outerKz (er - kx i ^ 2 - ky i ^ 2)).re * (b i - a i) := by
    intro a b
    rw [← Finset.sum_neg_distrib]
    exact Finset.sum_congr rfl fun _ _ => by ring
  rw [e]
  linarith

theorem reflection_strict {er : ℝ} (hp : ∀ i, 0 < er - kx i ^ 2 - ky i ^ 2)
    {W0 V0 W V : Matrix (ι ⊕ ι) (ι ⊕ ι) ℂ} {lam : ι ⊕ ι → ℂ}
    (h0 : freeSpaceEigenmodes (fun i => (kx i : ℂ)) (fun i => (ky i : ℂ)) = .ok (W0, V0))
    (hm : halfSpaceModes (fun i => (kx i : ℂ)) (fun i => (ky i : ℂ)) (er : ℂ) = .ok (W, V, lam))
    {S : SMat (ι ⊕ ι)} (h : reflectionScatmat W0 V0 W V = .ok S) : LeftStrict (gapFlux kx ky) S := by
  intro p q hpq hpf hq
  obtain ⟨l0, hh⟩ := gap_halfSpace h0
  obtain ⟨dW0, dV0⟩ := halfSpaceModes_det (by simp) hh
  obtain ⟨hg, -, -, ho⟩ := halfSpaceModes_outer hm
  rw [scatters_reflection h, ho] at hpq
  obtain ⟨f, b⟩ := p
  simp only at hpf
  subst hpf
  rw [gapFlux, ← gap_outer h0, ← hpq] at hq
  have := fluxZ_bwd_zero hp hq
  subst this
  refine fieldOf_injective dW0 dV0 (hpq.symm.trans ?_)
  rw [← ho]
  simp [fieldOf]

theorem transmission_strict {er : ℝ} (hp : ∀ i, 0 < er - kx i ^ 2 - ky i ^ 2)
    {W0 V0 W V : Matrix (ι ⊕ ι) (ι ⊕ ι) ℂ} {lam : ι ⊕ ι → ℂ}
    (h0 : freeSpaceEigenmodes (fun i => (kx i : ℂ)) (fun i => (ky i : ℂ)) = .ok (W0, V0))
    (hm : halfSpaceModes (fun i => (kx i : ℂ)) (fun i => (ky i : ℂ)) (er : ℂ) = .ok (W, V, lam))
    {S : SMat (ι ⊕ ι)} (h : transmissionScatmat W0 V0 W V = .ok S) : RightStrict (gapFlux kx ky) S := by
  intro p q hpq hqb hq
  obtain ⟨l0, hh⟩ := gap_halfSpace h0
  obtain ⟨dW0, dV0⟩ := halfSpaceModes_det (by simp) hh
  obtain ⟨hg, -, -, ho⟩ := halfSpaceModes_outer hm
  rw [scatters_transmission h, ho] at hpq
  obtain ⟨f, b⟩ := q
  simp only at hqb
  subst hqb
  rw [gapFlux, ← gap_outer h0, hpq] at hq
  have := fluxZ_fwd_zero hp hq
  subst this
  refine fieldOf_injective dW0 dV0 (hpq.trans ?_)
  rw [← ho]
  simp [fieldOf]

/-- A layer that does not amplify is a passive element. -/
theorem layer_passes {C : Matrix ι ι ℂ} (hC : C.det ≠ 0) (hs : AbsorbingMat C)
    {W V W0 V0 : Matrix (ι ⊕ ι) (ι ⊕ ι) ℂ} {lam : ι ⊕ ι → ℂ}
    (h0 : freeSpaceEigenmodes (fun i => (kx i : ℂ)) (fun i => (ky i : ℂ)) = .ok (W0, V0))
    (hm : IsModes (maxwellP (fun i => (kx i : ℂ)) (fun i => (ky i : ℂ)) C)
      (maxwellQ (fun i => (kx i : ℂ)) (fun i => (ky i : ℂ)) C) W V lam)
    {d k0 : ℝ} (hd : 0 ≤ d * k0) {S : SMat (ι ⊕ ι)} (h : buildScatmat W V W0 V0 lam d k0 = .ok S) :
    Passes (gapFlux kx ky) S := by
  obtain ⟨l0, hh⟩ := gap_halfSpace h0
  obtain ⟨dW0, dV0⟩ := halfSpaceModes_det (by simp) hh
  obtain ⟨-, -, -, -, -, -, -, -, dW, dV, -⟩ := buildScatmat_eq_ok.1 h
  have zero : ∀ p : Port (ι ⊕ ι), (fieldOf W0 V0 p).E = 0 ∧ (fieldOf W0 V0 p).H = 0 → p = ⟨0, 0⟩ := by
    intro p hp
    refine fieldOf_injective dW0 dV0 (Tang.ext (hp.1.trans ?_) (hp.2.trans ?_)) <;> simp [fieldOf]
  have e : fieldOf W0 V0 (⟨0, 0⟩ : Port (ι ⊕ ι)) = ⟨0, 0⟩ := by simp [fieldOf]
  refine ⟨fun p q hpq => ?_, fun p hpq => ?_, fun q hpq => ?_⟩
  · rw [scatters_buildScatmat h, LayerBVP, modal_iff_maxwell dW dV hm.1 hm.2, maxwellTransfer_iff_flow] at hpq
    rw [gapFlux, gapFlux, ← gap_outer h0, ← gap_outer h0, hpq]
    have := power_flow_antitone (kx := kx) (ky := ky) hC hs (fieldOf W0 V0 p) hd
    simpa [flow_zero] using this
  · rw [scatters_buildScatmat h, LayerBVP, modal_iff_maxwell dW dV hm.1 hm.2, maxwellTransfer_iff_flow, e] at hpq
    exact zero p (flow_eq_zero (by rw [← hpq]) (by rw [← hpq]))
  · rw [scatters_buildScatmat h, LayerBVP, modal_iff_maxwell dW dV hm.1 hm.2, maxwellTransfer_iff_flow, e] at hpq
    refine fieldOf_injective dW0 dV0 (hpq.trans ?_)
    rw [e]
    apply Tang.ext <;> funext i <;> simp [flow, Sum.elim_zero_zero]

/-- The scattering matrix of a layer that does not amplify can be computed when its modes match those of vacuum. -/
theorem passive_buildScatmat {C : Matrix ι ι ℂ} (hC : C.det ≠ 0) (hs : AbsorbingMat C)
    (hp : ∀ i, 0 < 1 - kx i ^ 2 - ky i ^ 2)
    {W V W0 V0 : Matrix (ι ⊕ ι) (ι ⊕ ι) ℂ} {lam : ι ⊕ ι → ℂ}
    (h0 : freeSpaceEigenmodes (fun i => (kx i : ℂ)) (fun i => (ky i : ℂ)) = .ok (W0, V0))
    (hW : W.det ≠ 0) (hV : V.det ≠ 0)
    (hm : IsModes (maxwellP (fun i => (kx i : ℂ)) (fun i => (ky i : ℂ)) C)
      (maxwellQ (fun i => (kx i : ℂ)) (fun i => (ky i : ℂ)) C) W V lam)
    (dA : (W⁻¹ * W0 + V⁻¹ * V0).det ≠ 0)
    {d k0 : ℝ} (hd : 0 ≤ d * k0) : ∃ S, buildScatmat W V W0 V0 lam d k0 = .ok S := by
  set A := W⁻¹ * W0 + V⁻¹ * V0 with hA
  set B := W⁻¹ * W0 - V⁻¹ * V0 with hB
  set X := propX lam (d * k0) with hX
  set T := A - X * B * (A⁻¹ * X) * B with hT
  refine ⟨⟨T⁻¹ * (X * B * (A⁻¹ * X) * A - B), T⁻¹ * (X * (A - B * (A⁻¹ * B))),
      T⁻¹ * (X * (A - B * (A⁻¹ * B))), T⁻¹ * (X * B * (A⁻¹ * X) * A - B)⟩,
    buildScatmat_eq_ok.2 ⟨A, B, X, T, rfl, rfl, rfl, rfl, hW, hV, dA, ?_, rfl, rfl, rfl, rfl⟩⟩
  intro hdet
  obtain ⟨x, hx, hTx⟩ := Matrix.exists_mulVec_eq_zero_iff.2 hdet
  have hb : LayerBVP W V W0 V0 lam (d * k0) ⟨0, x⟩
      ⟨A⁻¹ *ᵥ (X *ᵥ (B *ᵥ x)), 0⟩ := by
    rw [layerBVP_iff hW hV lam _ _ _ hA hB hX]
    rw [hT, sub_mulVec, sub_eq_zero] at hTx
    constructor
    · simp [mulVec_mulVec, mul_inv_of_det dA, ← Matrix.mul_assoc]
    · simp only [mulVec_zero, zero_add, add_zero]
      rw [hTx]
      simp only [mulVec_mulVec, Matrix.mul_assoc]
  rw [LayerBVP, modal_iff_maxwell hW hV hm.1 hm.2, maxwellTransfer_iff_flow] at hb
  have hle := power_flow_antitone (kx := kx) (ky := ky) hC hs (fieldOf W0 V0 ⟨0, x⟩) hd
  simp only [flow_zero] at hle
  rw [← hb, gap_outer h0, gap_outer h0] at hle
  exact hx (fluxZ_bwd_zero hp ((fluxZ_outer_fwd (fun i => (hp i).ne') rfl).trans hle))

theorem kzMasked_re_nonneg {z : ℂ} (h : (kzMasked z).im = 0) : 0 ≤ (kzMasked z).re := by
  by_cases hr : z.re < 0
  · exact absurd h (kzMasked_im_neg (Or.inr hr)).ne
  · rw [kzMasked, if_neg hr]; exact csqrt_re_nonneg z

/-- Wave numbers in vacuum (propagating) and in a medium without gain cannot cancel, weighted by the permittivity
or not. -/
theorem kz_no_cancel {eps : ℂ} (hi : eps.im ≤ 0) (h0 : eps ≠ 0) {k w : ℝ} (hk : 0 ≤ k) (hw : 0 < w) :
    (w : ℂ) + kzMasked (eps - k) ≠ 0 ∧ eps * w + kzMasked (eps - k) ≠ 0 := by
  have him : (kzMasked (eps - k)).im ≤ 0 := kzMasked_im_nonpos (by simpa using hi)
  constructor
  · intro h
    have h1 := congrArg Complex.re h
    have h2 := congrArg Complex.im h
    simp only [Complex.add_re, Complex.add_im, Complex.ofReal_re, Complex.ofReal_im, Complex.zero_re,
      Complex.zero_im, zero_add] at h1 h2
    have := kzMasked_re_nonneg h2
    linarith
  · intro h
    have h1 := congrArg Complex.re h
    have h2 := congrArg Complex.im h
    simp only [Complex.add_re, Complex.add_im, Complex.re_mul_ofReal, Complex.im_mul_ofReal, Complex.zero_re,
      Complex.zero_im] at h1 h2
    have hwi : eps.im * w ≤ 0 := mul_nonpos_of_nonpos_of_nonneg hi hw.le
    have e1 : eps.im = 0 := by
      have : eps.im * w = 0 := by linarith
      exact (mul_eq_zero.1 this).resolve_right hw.ne'
    have e2 : (kzMasked (eps - k)).im = 0 := by rw [e1] at h2; linarith
    have e3 := kzMasked_re_nonneg e2
    rcases lt_trichotomy eps.re 0 with hlt | heq | hgt
    · have := kzMasked_im_neg (z := eps - k) (Or.inr (by simp; linarith))
      linarith
    · exact h0 (Complex.ext heq e1)
    · have := mul_pos hgt hw
      linarith

/-- The modes of a uniform medium without gain match those of vacuum. -/
theorem uniform_match {eps : ℂ} (hi : eps.im ≤ 0) (he : eps ≠ 0) (hp : ∀ i, 0 < 1 - kx i ^ 2 - ky i ^ 2)
    {V W0 V0 : Matrix (ι ⊕ ι) (ι ⊕ ι) ℂ} (hV : V.det ≠ 0)
    (h0 : freeSpaceEigenmodes (fun i => (kx i : ℂ)) (fun i => (ky i : ℂ)) = .ok (W0, V0))
    (hg : ∀ i, eps - (kx i : ℂ) ^ 2 - (ky i : ℂ) ^ 2 ≠ 0)
    (hVe : V = Matrix.of fun i j => qBlock (fun i => (kx i : ℂ)) (fun i => (ky i : ℂ)) eps i j /
      stack2 (fun i => Complex.I * kzMasked (eps - (kx i : ℂ) ^ 2 - (ky i : ℂ) ^ 2)) j) :
    ((1 : Matrix (ι ⊕ ι) (ι ⊕ ι) ℂ)⁻¹ * W0 + V⁻¹ * V0).det ≠ 0 := by
  obtain ⟨-, rfl, h2⟩ := freeSpaceEigenmodes_eq_ok.1 h0
  simp only at h2
  intro hdet
  obtain ⟨x, hx, hAx⟩ := Matrix.exists_mulVec_eq_zero_iff.2 hdet
  rw [inv_one, Matrix.one_mul, add_mulVec, one_mulVec] at hAx
  have hz : V *ᵥ x + V0 *ᵥ x = 0 := by
    have := congrArg (V *ᵥ ·) hAx
    simpa [mulVec_add, mulVec_mulVec, ← Matrix.mul_assoc, mul_inv_of_det hV] using this
  refine hx ?_
  have hcol : ∀ (e : ℂ) (lam : ι ⊕ ι → ℂ),
      (Matrix.of fun i j => qBlock (fun i => (kx i : ℂ)) (fun i => (ky i : ℂ)) e i j / lam j) *ᵥ x =
        maxwellQ (fun i => (kx i : ℂ)) (fun i => (ky i : ℂ)) (e • 1) *ᵥ fun j => x j / lam j := by
    intro e lam
    funext a
    simp only [mulVec, dotProduct, Matrix.of_apply]
    refine Finset.sum_congr rfl fun b _ => ?_
    rw [show maxwellQ (fun i => (kx i : ℂ)) (fun i => (ky i : ℂ)) (e • 1) =
          qBlock (fun i => (kx i : ℂ)) (fun i => (ky i : ℂ)) e from rfl]
    ring
  have key : ∀ i, x (.inl i) = 0 ∧ x (.inr i) = 0 := by
    intro i
    have e1 := congrFun hz (.inl i)
    have e2 := congrFun hz (.inr i)
    rw [hVe, h2] at e1 e2
    simp only [Pi.add_apply, hcol, maxwellQ_mulVec, smul_mulVec, one_mulVec, Pi.smul_apply, smul_eq_mul, stack2,
      Sum.elim_inl, Sum.elim_inr, Pi.zero_apply] at e1 e2
    have hz0 : kzMasked (eps - (kx i : ℂ) ^ 2 - (ky i : ℂ) ^ 2) ≠ 0 := fun h => hg i (kzMasked_eq_zero.1 h)
    have hw : kzMasked (1 - (kx i : ℂ) ^ 2 - (ky i : ℂ) ^ 2) = (Real.sqrt (1 - kx i ^ 2 - ky i ^ 2) : ℂ) := by
      have e : (1 : ℂ) - (kx i : ℂ) ^ 2 - (ky i : ℂ) ^ 2 = ((1 - kx i ^ 2 - ky i ^ 2 : ℝ) : ℂ) := by push_cast; rfl
      rw [e, kzMasked_ofReal, outerKz_pos (hp i)]
    have hwp := Real.sqrt_pos.2 (hp i)
    have hws : ((Real.sqrt (1 - kx i ^ 2 - ky i ^ 2) : ℝ) : ℂ) ^ 2 = 1 - (kx i : ℂ) ^ 2 - (ky i : ℂ) ^ 2 := by
      rw [← Complex.ofReal_pow, Real.sq_sqrt (hp i).le]; push_cast; rfl
    obtain ⟨s1, s2⟩ := kz_no_cancel hi he (k := kx i ^ 2 + ky i ^ 2) (by positivity) hwp
    have hee : eps - ((kx i ^ 2 + ky i ^ 2 : ℝ) : ℂ) = eps - (kx i : ℂ) ^ 2 - (ky i : ℂ) ^ 2 := by push_cast; ring
    rw [hee] at s1 s2
    have hzs := kzMasked_sq (eps - (kx i : ℂ) ^ 2 - (ky i : ℂ) ^ 2)
    rw [hw] at e1 e2
    have hw0 : ((Real.sqrt (1 - kx i ^ 2 - ky i ^ 2) : ℝ) : ℂ) ≠ 0 := by exact_mod_cast hwp.ne'
    generalize ((Real.sqrt (1 - kx i ^ 2 - ky i ^ 2) : ℝ) : ℂ) = w at *
    generalize kzMasked (eps - (kx i : ℂ) ^ 2 - (ky i : ℂ) ^ 2) = z at *
    generalize x (.inl i) = X at *
    generalize x (.inr i) = Y at *
    have hI : Complex.I ≠ 0 := Complex.I_ne_zero
    field_simp at e1 e2
    have hD : (ky i : ℂ) * X - Y * kx i = 0 := by
      have : (w + z) * (w * z) * ((ky i : ℂ) * X - Y * kx i) = 0 := by
        linear_combination -(kx i : ℂ) * e1 - (ky i : ℂ) * e2 + (w * ((ky i : ℂ) * X - Y * kx i)) * hzs +
          (z * ((ky i : ℂ) * X - Y * kx i)) * hws
      exact (mul_eq_zero.1 this).resolve_left (mul_ne_zero s1 (mul_ne_zero hw0 hz0))
    constructor
    · have : (eps * w + z) * X = 0 := by
        linear_combination -e2 + (w + z) * ky i * hD
      exact (mul_eq_zero.1 this).resolve_left s2
    · have : (eps * w + z) * Y = 0 := by
        linear_combination e1 - (w + z) * kx i * hD
      exact (mul_eq_zero.1 this).resolve_left s2
  funext i
  rcases i with i | i
  · exact (key i).1
  · exact (key i).2

end

theorem uniform_absorbing {N : ℕ} {eps : ℂ} (h : eps.im ≤ 0) : AbsorbingMat (eps • (1 : Matrix (Fin N) (Fin N) ℂ)) := by
  intro u
  rw [quad_smul_one]
  exact mul_nonpos_of_nonpos_of_nonneg h (Finset.sum_nonneg fun _ _ => sq_nonneg _)

/-- A uniform layer without gain can be solved when every order propagates in vacuum. -/
theorem uniform_solve (lib : NumLib) {N : ℕ} {e : Expansion N} {kp : ℝ × ℝ} {wl : ℝ} (hwl : 0 < wl)
    (hp : ∀ i, 0 < 1 - orderKx e kp wl i ^ 2 - orderKy e kp wl i ^ 2) {eps : ℂ} (hi : eps.im ≤ 0) (heps : eps ≠ 0)
    (hg : ∀ i, eps - (orderKx e kp wl i : ℂ) ^ 2 - (orderKy e kp wl i : ℂ) ^ 2 ≠ 0) {d : ℝ} (hd : 0 ≤ d) :
    ∃ r, (Form.uniform eps).solve lib e d ((kp.1 : ℂ), (kp.2 : ℂ)) wl = .ok r := by
  obtain ⟨kz, hk⟩ := real_kVectors e hwl.ne' kp
  obtain ⟨V0, h0⟩ := gap_exists fun i => (hp i).ne'
  have hd' : 0 ≤ d * (2 * Real.pi / wl) := by have := Real.pi_pos; positivity
  simp only [Form.solve, hk, ok_bind, h0]
  set lam := stack2 (fun i => Complex.I * kzMasked (eps - (orderKx e kp wl i : ℂ) ^ 2 - (orderKy e kp wl i : ℂ) ^ 2))
    with hlam
  set V : Mat2 N := Matrix.of fun i j =>
    qBlock (fun i => (orderKx e kp wl i : ℂ)) (fun i => (orderKy e kp wl i : ℂ)) eps i j / lam j with hV
  have hm0 : solveUniformLayer (fun i => (orderKx e kp wl i : ℂ)) (fun i => (orderKy e kp wl i : ℂ)) eps =
      .ok (1, V, lam) := solveUniformLayer_eq_ok.2 ⟨heps, hg, rfl, rfl, rfl⟩
  have hkz : ∀ i, kzMasked (eps - (orderKx e kp wl i : ℂ) ^ 2 - (orderKy e kp wl i : ℂ) ^ 2) ≠ 0 :=
    fun i h => hg i (kzMasked_eq_zero.1 h)
  have m := uniform_isModes (kx := fun i => (orderKx e kp wl i : ℂ)) (ky := fun i => (orderKy e kp wl i : ℂ)) heps hkz
    fun i => kzMasked_sq _
  obtain ⟨-, hP⟩ := structuredP_eq_ok.1
    (structuredP_uniform (fun i => (orderKx e kp wl i : ℂ)) (fun i => (orderKy e kp wl i : ℂ)) heps)
  rw [hP] at m
  have hQ : qBlock (fun i => (orderKx e kp wl i : ℂ)) (fun i => (orderKy e kp wl i : ℂ)) eps =
      maxwellQ (fun i => (orderKx e kp wl i : ℂ)) (fun i => (orderKy e kp wl i : ℂ)) (eps • 1) := by
    rw [qBlock_eq_structuredQ, structuredQ_eq]
  have hlam0 : ∀ j, lam j ≠ 0 := by
    rintro (j | j) <;> simp [hlam, stack2, hkz j]
  have hVd : V.det ≠ 0 := by
    intro hz
    have := congrArg Matrix.det m.1
    rw [← hlam, ← hV, det_mul, hz, mul_zero, det_mul, det_one, one_mul, det_diagonal] at this
    exact Finset.prod_ne_zero_iff.2 (fun j _ => hlam0 j) this.symm
  have hdet : ((eps • 1 : Matrix (Fin N) (Fin N) ℂ)).det ≠ 0 := by simp [heps]
  have hm : IsModes (maxwellP (fun i => (orderKx e kp wl i : ℂ)) (fun i => (orderKy e kp wl i : ℂ)) (eps • 1))
      (maxwellQ (fun i => (orderKx e kp wl i : ℂ)) (fun i => (orderKy e kp wl i : ℂ)) (eps • 1)) 1 V lam := by
    rw [← hQ]; exact m
  obtain ⟨S, hS⟩ := passive_buildScatmat hdet (uniform_absorbing hi) hp h0 (by simp) hVd hm
    (uniform_match hi heps hp hVd h0 hg hV) hd'
  simp only [hm0, ok_bind, hS, inverseEps, heps, if_false]
  exact ⟨_, rfl⟩

/-- A solved layer that does not amplify is a passive element. -/
theorem solved_passes {lib : NumLib} {N : ℕ} (he : EigContract (lib.eig N)) {e : Expansion N} {kp : ℝ × ℝ}
    {wl : ℝ} (hwl : 0 < wl) {form : Form} (hl : form.isLayer) (hf : form.absorbing lib.jv1 e) {d : ℝ} (hd : 0 ≤ d)
    {r : Solved N} (h : form.solve lib e d ((kp.1 : ℂ), (kp.2 : ℂ)) wl = .ok r) :
    Passes (gapFlux (orderKx e kp wl) (orderKy e kp wl)) r.S := by
  obtain ⟨kx, ky, kz, W0, V0, hk, h0, hS⟩ := Form.solve_layer hl h
  obtain ⟨kz', hk'⟩ := real_kVectors e hwl.ne' kp
  rw [hk', Except.ok.injEq, Prod.mk.injEq, Prod.mk.injEq] at hk
  obtain ⟨rfl, rfl, -⟩ := hk
  obtain ⟨C, hC, hdet, hm, -⟩ := hS.perm
  exact layer_passes hdet (absorbing_perm hf hC) h0 (hm he)
    (by have := Real.pi_pos; positivity) hS.scat

end Khepri
