import Verif.Lemmas.Poynting
import Verif.Spec.Symmetry
import Verif.Lemmas.FieldsSource
import Verif.Props.Crystal
import Mathlib.Analysis.Normed.Algebra.MatrixExponential

set_option linter.unusedSectionVars false

namespace Khepri

open Matrix

section
variable {n : Type} [Fintype n] [DecidableEq n]

/-- A relation between amplitudes determines the S-matrix. -/
theorem scatters_ext {S S' : SMat n} (h : ∀ p q, Scatters S p q → Scatters S' p q) : S = S' := by
  have hc : ∀ a b : n → ℂ, S.s11 *ᵥ a + S.s12 *ᵥ b = S'.s11 *ᵥ a + S'.s12 *ᵥ b ∧
      S.s21 *ᵥ a + S.s22 *ᵥ b = S'.s21 *ᵥ a + S'.s22 *ᵥ b := fun a b =>
    h ⟨a, S.s11 *ᵥ a + S.s12 *ᵥ b⟩ ⟨S.s21 *ᵥ a + S.s22 *ᵥ b, b⟩ ⟨rfl, rfl⟩
  ext1
  · refine Matrix.ext_of_mulVec_single fun i => ?_
    simpa using (hc (Pi.single i 1) 0).1
  · refine Matrix.ext_of_mulVec_single fun i => ?_
    simpa using (hc 0 (Pi.single i 1)).1
  · refine Matrix.ext_of_mulVec_single fun i => ?_
    simpa using (hc (Pi.single i 1) 0).2
  · refine Matrix.ext_of_mulVec_single fun i => ?_
    simpa using (hc 0 (Pi.single i 1)).2

/-- Tangential fields carried by a change of the amplitudes. -/
def Tang.carry (UE UH : Matrix n n ℂ) (F : Tang n) : Tang n := ⟨UE *ᵥ F.E, UH *ᵥ F.H⟩

/-- Waves carried by a change of the amplitudes. -/
def Port.carry (U : Matrix n n ℂ) (p : Port n) : Port n := ⟨U *ᵥ p.fwd, U *ᵥ p.bwd⟩

theorem exp_intertwine {A A' U : Matrix n n ℂ} (hU : IsUnit U) (h : A' * U = U * A) :
    NormedSpace.exp A' * U = U * NormedSpace.exp A := by
  have hd : IsUnit U.det := (Matrix.isUnit_iff_isUnit_det U).1 hU
  have e : A' = U * A * U⁻¹ := by rw [← h, Matrix.mul_nonsing_inv_cancel_right _ _ hd]
  rw [e, Matrix.exp_conj U A hU, Matrix.nonsing_inv_mul_cancel_right _ _ hd]

theorem transfer_carry {P Q P' Q' UE UH : Matrix n n ℂ} {t : ℝ} (hE : IsUnit UE) (hH : IsUnit UH)
    (hP : P' * UH = UE * P) (hQ : Q' * UE = UH * Q) {F G : Tang n} (h : MaxwellTransfer P Q t F G) :
    MaxwellTransfer P' Q' t (F.carry UE UH) (G.carry UE UH) := by
  unfold MaxwellTransfer at *
  have hU : IsUnit (fromBlocks UE 0 0 UH : Matrix (n ⊕ n) (n ⊕ n) ℂ) := by
    rw [Matrix.isUnit_iff_isUnit_det] at *
    rw [det_fromBlocks_zero₂₁]
    exact hE.mul hH
  have hi : ((t : ℂ) • fromBlocks 0 P' Q' 0) * fromBlocks UE 0 0 UH =
      fromBlocks UE 0 0 UH * ((t : ℂ) • fromBlocks 0 P Q 0) := by
    rw [Matrix.smul_mul, Matrix.mul_smul, fromBlocks_multiply, fromBlocks_multiply]
    simp [hP, hQ]
  have := exp_intertwine hU hi
  have e : ∀ F : Tang n, Sum.elim (F.carry UE UH).E (F.carry UE UH).H =
      fromBlocks UE 0 0 UH *ᵥ Sum.elim F.E F.H := by
    intro F
    rw [fromBlocks_mulVec]
    simp [Tang.carry]
  rw [e, e, h, mulVec_mulVec, mulVec_mulVec, this]

theorem chain_carry {UE UH : Matrix n n ℂ} (hE : IsUnit UE) (hH : IsUnit UH)
    {Ms Ms' : List (Matrix n n ℂ × Matrix n n ℂ × ℝ)}
    (h : List.Forall₂ (fun M M' => M'.1 * UH = UE * M.1 ∧ M'.2.1 * UE = UH * M.2.1 ∧ M'.2.2 = M.2.2) Ms Ms')
    {F G : Tang n} (hc : MaxwellChain Ms F G) : MaxwellChain Ms' (F.carry UE UH) (G.carry UE UH) := by
  induction h generalizing F with
  | nil => exact congrArg _ hc
  | cons hM _ ih =>
    obtain ⟨K, h1, h2⟩ := hc
    refine ⟨K.carry UE UH, ?_, ih h2⟩
    rw [hM.2.2]
    exact transfer_carry hE hH hM.1 hM.2.1 h1

/-- S-matrices of two devices whose equations correspond. -/
theorem scatters_carry {UE UH : Matrix n n ℂ} (hE : IsUnit UE) (hH : IsUnit UH)
    {Ms Ms' : List (Matrix n n ℂ × Matrix n n ℂ × ℝ)}
    (h : List.Forall₂ (fun M M' => M'.1 * UH = UE * M.1 ∧ M'.2.1 * UE = UH * M.2.1 ∧ M'.2.2 = M.2.2) Ms Ms')
    {S S' : SMat n} {fr ft fr' ft' : Port n → Tang n}
    (hS : ∀ p q, Scatters S p q ↔ MaxwellChain Ms (fr p) (ft q))
    (hS' : ∀ p q, Scatters S' p q ↔ MaxwellChain Ms' (fr' p) (ft' q))
    (hr : ∀ p, fr' (p.carry UE) = (fr p).carry UE UH) (ht : ∀ p, ft' (p.carry UE) = (ft p).carry UE UH) :
    S'.s11 * UE = UE * S.s11 ∧ S'.s12 * UE = UE * S.s12 ∧ S'.s21 * UE = UE * S.s21 ∧ S'.s22 * UE = UE * S.s22 := by
  have key : ∀ p q, Scatters S p q → Scatters S' (p.carry UE) (q.carry UE) := by
    intro p q hpq
    rw [hS', hr, ht]
    exact chain_carry hE hH h ((hS p q).1 hpq)
  have hc : ∀ a b : n → ℂ, UE *ᵥ (S.s11 *ᵥ a + S.s12 *ᵥ b) = S'.s11 *ᵥ UE *ᵥ a + S'.s12 *ᵥ UE *ᵥ b ∧
      UE *ᵥ (S.s21 *ᵥ a + S.s22 *ᵥ b) = S'.s21 *ᵥ UE *ᵥ a + S'.s22 *ᵥ UE *ᵥ b := fun a b =>
    key ⟨a, S.s11 *ᵥ a + S.s12 *ᵥ b⟩ ⟨S.s21 *ᵥ a + S.s22 *ᵥ b, b⟩ ⟨rfl, rfl⟩
  refine ⟨?_, ?_, ?_, ?_⟩
  · refine Matrix.ext_of_mulVec_single fun i => ?_
    rw [← mulVec_mulVec, ← mulVec_mulVec]
    simpa using (hc (Pi.single i 1) 0).1.symm
  · refine Matrix.ext_of_mulVec_single fun i => ?_
    rw [← mulVec_mulVec, ← mulVec_mulVec]
    simpa using (hc 0 (Pi.single i 1)).1.symm
  · refine Matrix.ext_of_mulVec_single fun i => ?_
    rw [← mulVec_mulVec, ← mulVec_mulVec]
    simpa using (hc (Pi.single i 1) 0).2.symm
  · refine Matrix.ext_of_mulVec_single fun i => ?_
    rw [← mulVec_mulVec, ← mulVec_mulVec]
    simpa using (hc 0 (Pi.single i 1)).2.symm

end

section
variable {N : ℕ} {lib : NumLib} {order : List String} {c c1 c2 c3 : Crystal N} {stack : List String}
  {m : Bool ⊕ List Bool} {Ls : List (Layer N)} {er et : ℝ} {wl : ℝ} {te tm : ℂ} {theta phi : ℝ}
  {kpo : Option (ℂ × ℂ)}

/-- The fluxes reported for a device, order by order. -/
theorem device_fluxes (hc : FreshDevice c stack m Ls er et)
    (h1 : c.setDevice stack m = .ok c1) (h2 : c1.setSource wl te tm theta phi kpo = .ok c2)
    (ho : SetOrder ("Sref" :: (stack ++ ["Strans"])) order) (h3 : c2.solve lib order = .ok c3)
    (hwl : 0 < wl) {src : Source} (hs : c2.source = some src) {kp : ℝ × ℝ}
    (hkp : src.kp = (↑kp.1, ↑kp.2)) {f : Crystal.Fluxes N} (hf : c3.poyntingFluxEnd = .ok f) :
    ∃ (st : Stacked (Fin N ⊕ Fin N)) (inc : Vec2 N), c3.stacked = some st ∧
      incident N te tm ⟨kp.1, kp.2, star (csqrt (((2 * Real.pi / wl : ℝ) : ℂ) ^ 2 * er - (kp.1 : ℂ) ^ 2 - (kp.2 : ℂ) ^ 2))⟩ = .ok inc ∧
      let kx := orderKx c.expansion kp wl
      let ky := orderKy c.expansion kp wl
      let x0 := er - (kp.1 / (2 * Real.pi / wl)) ^ 2 - (kp.2 / (2 * Real.pi / wl)) ^ 2
      0 < x0 ∧
      (∀ i, f.Rg i = (outerKz (er - kx i ^ 2 - ky i ^ 2)).re / Real.sqrt x0 *
        waveNorm kx ky (fun i => outerKz (er - kx i ^ 2 - ky i ^ 2)) (st.Stot.s11 *ᵥ inc) i) ∧
      (∀ i, f.Tg i = (outerKz (et - kx i ^ 2 - ky i ^ 2)).re / Real.sqrt x0 *
        waveNorm kx ky (fun i => outerKz (et - kx i ^ 2 - ky i ^ 2)) (st.Stot.s21 *ᵥ inc) i) ∧
      f.R = ∑ i, f.Rg i ∧ f.T = ∑ i, f.Tg i := by
  obtain ⟨lr, lt, Ls', k, hd, hL, hexp, hi, hie, hwl', hk, hsrc, -⟩ := fresh_standard hc h1 h2
  have hs2 := hsrc
  rw [hs, Option.some.injEq] at hs2
  have hw : src.wavelength = wl := by rw [hs2]
  have hte : src.te = te := by rw [hs2]
  have htm : src.tm = tm := by rw [hs2]
  have hks : k = (↑kp.1, ↑kp.2) := by rw [← hkp, hs2]
  have hkz : src.kzi = star (csqrt (((2 * Real.pi / wl : ℝ) : ℂ) ^ 2 * er - (kp.1 : ℂ) ^ 2 - (kp.2 : ℂ) ^ 2)) := by
    rw [hs2, hks]
  obtain ⟨src', kxc, kyc, W0, V0, rr, rs, rt, st, h⟩ := solvedDevice hd ho h3
  have hs' := h.source
  rw [hs, Option.some.injEq] at hs'
  subst hs'
  obtain ⟨rfl, rfl⟩ := h.real hkp
  obtain ⟨hgr, hWr, -, hor⟩ := halfSpaceModes_outer h.ref_modes
  obtain ⟨hgt, hWt, -, hot⟩ := halfSpaceModes_outer h.trans_modes
  obtain ⟨st', src', inc, ref, tr, Wref, Wtrans, T, R, g1, g2, g3, g4, g5, g6, g7, g8, hT, hR, rfl⟩ :=
    Crystal.poyntingFluxEnd_eq_ok.1 hf
  have hst : c3.stacked = some st := by rw [h.rest']
  have hcs : c3.source = some src := by rw [h.rest']; exact hs
  have hce : c3.expansion = c.expansion := by rw [h.rest']; exact hexp
  have hci : c3.epsi = (er : ℂ) := by rw [h.rest']; exact hi
  have hcx : c3.epse = (et : ℂ) := by rw [h.rest']; exact hie
  rw [hst, Option.some.injEq] at g1
  rw [hcs, Option.some.injEq] at g2
  subst g1 g2
  rw [h.ref', Option.some.injEq] at g4
  rw [h.trans', Option.some.injEq] at g7
  subst g4 g7
  simp only [AnyLayer.W, Layer.store, hd.ref_fields, hd.trans_fields, if_true, Option.some.injEq] at g5 g8
  rw [hWr] at g5
  rw [hWt] at g8
  subst g5 g8
  rw [hce, hci, hcx, hkp, Matrix.one_mul, inv_one, one_mulVec, hw] at hT
  rw [hce, hci, hkp, Matrix.one_mul, inv_one, one_mulVec, hw] at hR
  obtain ⟨hz0, -, hTi, hTt⟩ := poyntingFluxes_real hwl hT
  obtain ⟨-, -, hRi, hRt⟩ := poyntingFluxes_real hwl hR
  obtain ⟨hpos, hz1⟩ := outerKz_re_ne_zero hz0
  rw [hz1, Complex.ofReal_re] at hTi hRi
  rw [hte, htm, hkz, hkp] at g3
  exact ⟨st, inc, hst, g3, hpos, hRi, hTi, hRt, hTt⟩

end

section
variable {N : ℕ} {kx ky kx' ky' : Fin N → ℝ}

theorem outer_carry {er : ℝ} {UE UH : Mat2 N}
    (hQ : maxwellQ (fun i => (kx' i : ℂ)) (fun i => (ky' i : ℂ)) ((er : ℂ) • 1) * UE =
      UH * maxwellQ (fun i => (kx i : ℂ)) (fun i => (ky i : ℂ)) ((er : ℂ) • 1))
    (hk : ∀ i j, UE i j ≠ 0 → kx' (i.elim id id) ^ 2 + ky' (i.elim id id) ^ 2 =
      kx (j.elim id id) ^ 2 + ky (j.elim id id) ^ 2) (p : Port (Fin N ⊕ Fin N)) :
    outerField kx' ky' er (p.carry UE) = (outerField kx ky er p).carry UE UH := by
  unfold outerField Tang.carry Port.carry
  congr 1
  · rw [mulVec_add]
  · rw [mulVec_mulVec, ← hQ, ← mulVec_mulVec]
    congr 1
    funext i
    rw [← Pi.sub_apply, ← mulVec_sub]
    simp only [mulVec, dotProduct, Pi.sub_apply]
    rw [Finset.sum_div]
    refine Finset.sum_congr rfl fun j _ => ?_
    by_cases h : UE i j = 0
    · simp [h]
    · rw [mul_div_assoc, sub_sub, sub_sub, hk i j h]

/-- Matching layers of two devices give matching equations. -/
theorem layers_carry {jv1 : ℝ → ℝ} {e e' : Expansion N} {k0 k0' : ℝ} {UE UH : Mat2 N}
    {Ls Ls' : List (Layer N)} {Ms Ms' : List (Mat2 N × Mat2 N × ℝ)}
    (h : List.Forall₂ (fun l l' => l'.depth * k0' = l.depth * k0 ∧ ∀ C C', C.det ≠ 0 → C'.det ≠ 0 →
      Permittivity jv1 e l.form C → Permittivity jv1 e' l'.form C' →
      maxwellP (fun i => (kx' i : ℂ)) (fun i => (ky' i : ℂ)) C' * UH =
        UE * maxwellP (fun i => (kx i : ℂ)) (fun i => (ky i : ℂ)) C ∧
      maxwellQ (fun i => (kx' i : ℂ)) (fun i => (ky' i : ℂ)) C' * UE =
        UH * maxwellQ (fun i => (kx i : ℂ)) (fun i => (ky i : ℂ)) C) Ls Ls')
    (hM : LayerEquations jv1 e kx ky k0 Ls Ms) (hM' : LayerEquations jv1 e' kx' ky' k0' Ls' Ms') :
    List.Forall₂ (fun M M' => M'.1 * UH = UE * M.1 ∧ M'.2.1 * UE = UH * M.2.1 ∧ M'.2.2 = M.2.2) Ms Ms' := by
  unfold LayerEquations at *
  induction h generalizing Ms Ms' with
  | nil => cases hM; cases hM'; exact .nil
  | cons h1 _ ih =>
    cases hM with
    | cons a b =>
      cases hM' with
      | cons a' b' =>
        obtain ⟨C, hC, hd, rfl⟩ := a
        obtain ⟨C', hC', hd', rfl⟩ := a'
        obtain ⟨e1, e2⟩ := h1.2 C C' hd hd' hC hC'
        exact .cons ⟨e1, e2, h1.1⟩ (ih b b')

/-! ### Turned fields -/

/-- The matrix that turns the electric field of every order. -/
noncomputable def turnMat (N : ℕ) (a : ℝ) : Mat2 N :=
  fromBlocks ((Real.cos a : ℂ) • 1) (-(Real.sin a : ℂ) • 1) ((Real.sin a : ℂ) • 1) ((Real.cos a : ℂ) • 1)

theorem cs_sq (a : ℝ) : (Real.cos a : ℂ) ^ 2 + (Real.sin a : ℂ) ^ 2 = 1 := by
  exact_mod_cast Real.cos_sq_add_sin_sq a

theorem turnMat_neg (a : ℝ) : turnMat N a * turnMat N (-a) = 1 := by
  have h := cs_sq a
  simp only [turnMat, fromBlocks_multiply, Real.cos_neg, Real.sin_neg, Complex.ofReal_neg]
  rw [← fromBlocks_one]
  simp only [smul_mul_smul_comm, Matrix.one_mul, ← add_smul, neg_neg, mul_neg, neg_mul]
  congr 1
  · rw [show (Real.cos a : ℂ) * Real.cos a + (Real.sin a : ℂ) * Real.sin a = 1 by linear_combination h, one_smul]
  · rw [show (Real.cos a : ℂ) * Real.sin a + -((Real.sin a : ℂ) * Real.cos a) = 0 by ring, zero_smul]
  · rw [show (Real.sin a : ℂ) * Real.cos a + -((Real.cos a : ℂ) * Real.sin a) = 0 by ring, zero_smul]
  · rw [show (Real.sin a : ℂ) * Real.sin a + (Real.cos a : ℂ) * Real.cos a = 1 by linear_combination h, one_smul]

theorem turnMat_unit (a : ℝ) : IsUnit (turnMat N a) := by
  rw [Matrix.isUnit_iff_isUnit_det]
  refine IsUnit.of_mul_eq_one (turnMat N (-a)).det ?_
  rw [← det_mul, turnMat_neg, det_one]

theorem turnMat_mulVec (a : ℝ) (v : Vec2 N) : turnMat N a *ᵥ v = turned a v := by
  have : v = Sum.elim (v ∘ Sum.inl) (v ∘ Sum.inr) := by funext i; cases i <;> rfl
  conv_lhs => rw [this]
  rw [turnMat, fromBlocks_mulVec]
  funext i
  cases i with
  | inl i => simp [turned, smul_mulVec, neg_mulVec, sub_eq_add_neg]
  | inr i => simp [turned, smul_mulVec]

/-- Common form of the two matrices of Maxwell's equations. -/
noncomputable def curlBlock (kx ky : Fin N → ℂ) (K M : Matrix (Fin N) (Fin N) ℂ) : Mat2 N :=
  fromBlocks (diagonal kx * K * diagonal ky) (M - diagonal kx * K * diagonal kx)
    (diagonal ky * K * diagonal ky - M) (-(diagonal ky * K * diagonal kx))

theorem maxwellP_eq (kx ky : Fin N → ℂ) (C : Matrix (Fin N) (Fin N) ℂ) :
    maxwellP kx ky C = curlBlock kx ky C⁻¹ 1 := rfl

theorem maxwellQ_eq (kx ky : Fin N → ℂ) (C : Matrix (Fin N) (Fin N) ℂ) :
    maxwellQ kx ky C = curlBlock kx ky 1 C := by simp [maxwellQ, curlBlock]

theorem turn_block (a : ℝ) {K M : Matrix (Fin N) (Fin N) ℂ}
    (h1 : ∀ i, kx' i = Real.cos a * kx i - Real.sin a * ky i)
    (h2 : ∀ i, ky' i = Real.sin a * kx i + Real.cos a * ky i) :
    curlBlock (fun i => (kx' i : ℂ)) (fun i => (ky' i : ℂ)) K M * turnMat N a =
      turnMat N a * curlBlock (fun i => (kx i : ℂ)) (fun i => (ky i : ℂ)) K M := by
  have h := cs_sq a
  simp only [curlBlock, turnMat, fromBlocks_multiply]
  congr 1 <;>
  · ext i j
    simp only [Matrix.add_apply, Matrix.mul_smul, Matrix.smul_mul, Matrix.mul_one, Matrix.one_mul,
      Matrix.smul_apply, Matrix.sub_apply, Matrix.neg_apply, smul_eq_mul, diagonal_mul, mul_diagonal, h1, h2,
      Complex.ofReal_add, Complex.ofReal_sub, Complex.ofReal_mul]
    first
    | linear_combination (K i j * (Real.cos a * kx i - Real.sin a * ky i) * ky j) * h
    | linear_combination -(K i j * (Real.cos a * kx i - Real.sin a * ky i) * kx j) * h
    | linear_combination (K i j * (Real.sin a * kx i + Real.cos a * ky i) * ky j) * h
    | linear_combination -(K i j * (Real.sin a * kx i + Real.cos a * ky i) * kx j) * h

/-! ### Phases -/

/-- The matrix that multiplies the field of every order by a factor. -/
def phaseMat (d : Fin N → ℂ) : Mat2 N := diagonal (Sum.elim d d)

theorem phaseMat_blocks (d : Fin N → ℂ) : phaseMat d = fromBlocks (diagonal d) 0 0 (diagonal d) := by
  rw [phaseMat, fromBlocks_diagonal]

theorem phaseMat_unit {d : Fin N → ℂ} (hd : ∀ i, d i ≠ 0) : IsUnit (phaseMat d) := by
  rw [Matrix.isUnit_iff_isUnit_det, phaseMat, det_diagonal, isUnit_iff_ne_zero, Finset.prod_ne_zero_iff]
  rintro (i | i) - <;> exact hd i

theorem phase_block {d : Fin N → ℂ} {K M K' M' : Matrix (Fin N) (Fin N) ℂ} (hK : ∀ i j, K' i j * d j = d i * K i j)
    (hM : ∀ i j, M' i j * d j = d i * M i j) :
    curlBlock (fun i => (kx i : ℂ)) (fun i => (ky i : ℂ)) K' M' * phaseMat d =
      phaseMat d * curlBlock (fun i => (kx i : ℂ)) (fun i => (ky i : ℂ)) K M := by
  simp only [curlBlock, phaseMat_blocks, fromBlocks_multiply]
  congr 1 <;>
  · ext i j
    simp only [Matrix.add_apply, Matrix.mul_zero, Matrix.zero_mul, Matrix.zero_apply, add_zero, zero_add,
      Matrix.sub_apply, Matrix.neg_apply, diagonal_mul, mul_diagonal]
    first
    | linear_combination (kx i * ky j) * hK i j
    | linear_combination (hM i j) - (kx i * kx j) * hK i j
    | linear_combination (ky i * ky j) * hK i j - hM i j
    | linear_combination -(ky i * kx j) * hK i j

theorem phase_inv {d : Fin N → ℂ} {C C' : Matrix (Fin N) (Fin N) ℂ}
    (hC : C.det ≠ 0) (hC' : C'.det ≠ 0) (h : ∀ i j, C' i j * d j = d i * C i j) (i j : Fin N) :
    C'⁻¹ i j * d j = d i * C⁻¹ i j := by
  have e : C' * diagonal d = diagonal d * C := by ext i j; rw [mul_diagonal, diagonal_mul, h]
  have e2 : diagonal d * C⁻¹ = C'⁻¹ * diagonal d := by
    have h1 : diagonal d = C'⁻¹ * (diagonal d * C) := by
      rw [← e, Matrix.nonsing_inv_mul_cancel_left _ _ hC'.isUnit]
    rw [← Matrix.mul_assoc] at h1
    conv_lhs => rw [h1]
    rw [Matrix.mul_nonsing_inv_cancel_right _ _ hC.isUnit]
  have := congrFun (congrFun e2 i) j
  rw [mul_diagonal, diagonal_mul] at this
  exact this.symm

end

section
variable {N : ℕ} {lib : NumLib} {c c3 c' c3' : Crystal N} {stack stack' : List String}
  {m m' : Bool ⊕ List Bool} {Ls Ls' : List (Layer N)} {er et wl er' et' wl' : ℝ} {te tm te' tm' : ℂ}
  {theta phi theta' phi' : ℝ} {kpo kpo' : Option (ℂ × ℂ)} {kp kp' : R2}

theorem DeviceRun.kp_eq (h : DeviceRun lib c stack m Ls er et wl te tm theta phi kpo kp c3) :
    wl ≠ 0 ∧ Crystal.orDefault kpo (computeKplanar er wl theta phi) = .ok ((kp.1 : ℂ), (kp.2 : ℂ)) := by
  obtain ⟨hc, c1, c2, order, src, h1, h2, -, -, hs, hkp⟩ := h
  obtain ⟨lr, lt, Ls', k, hd, hL, hexp, hi, hie, hwl', hk, hsrc, -⟩ := fresh_standard hc h1 h2
  rw [hs, Option.some.injEq] at hsrc
  have : k = ((kp.1 : ℂ), (kp.2 : ℂ)) := by rw [← hkp, hsrc]
  exact ⟨hwl', this ▸ hk⟩

/-- S-matrices of two devices with corresponding layers. -/
theorem runs_carry (he : EigContract (lib.eig N))
    (h : DeviceRun lib c stack m Ls er et wl te tm theta phi kpo kp c3)
    (h' : DeviceRun lib c' stack' m' Ls' er et wl' te' tm' theta' phi' kpo' kp' c3') {UE UH : Mat2 N}
    (hE : IsUnit UE) (hH : IsUnit UH)
    (hL : List.Forall₂ (fun l l' => l'.depth * (2 * Real.pi / wl') = l.depth * (2 * Real.pi / wl) ∧
      ∀ C C', C.det ≠ 0 → C'.det ≠ 0 →
      Permittivity lib.jv1 c.expansion l.form C → Permittivity lib.jv1 c'.expansion l'.form C' →
      maxwellP (fun i => (orderKx c'.expansion kp' wl' i : ℂ)) (fun i => (orderKy c'.expansion kp' wl' i : ℂ)) C' * UH =
        UE * maxwellP (fun i => (orderKx c.expansion kp wl i : ℂ)) (fun i => (orderKy c.expansion kp wl i : ℂ)) C ∧
      maxwellQ (fun i => (orderKx c'.expansion kp' wl' i : ℂ)) (fun i => (orderKy c'.expansion kp' wl' i : ℂ)) C' * UE =
        UH * maxwellQ (fun i => (orderKx c.expansion kp wl i : ℂ)) (fun i => (orderKy c.expansion kp wl i : ℂ)) C) Ls Ls')
    (hQ : ∀ e : ℂ,
      maxwellQ (fun i => (orderKx c'.expansion kp' wl' i : ℂ)) (fun i => (orderKy c'.expansion kp' wl' i : ℂ)) (e • 1) * UE =
        UH * maxwellQ (fun i => (orderKx c.expansion kp wl i : ℂ)) (fun i => (orderKy c.expansion kp wl i : ℂ)) (e • 1))
    (hk : ∀ i j, UE i j ≠ 0 → orderKx c'.expansion kp' wl' (i.elim id id) ^ 2 + orderKy c'.expansion kp' wl' (i.elim id id) ^ 2 =
      orderKx c.expansion kp wl (j.elim id id) ^ 2 + orderKy c.expansion kp wl (j.elim id id) ^ 2)
    {st st' : Stacked (Fin N ⊕ Fin N)} (hst : c3.stacked = some st) (hst' : c3'.stacked = some st') :
    st'.Stot.s11 * UE = UE * st.Stot.s11 ∧ st'.Stot.s12 * UE = UE * st.Stot.s12 ∧
      st'.Stot.s21 * UE = UE * st.Stot.s21 ∧ st'.Stot.s22 * UE = UE * st.Stot.s22 := by
  obtain ⟨hc, c1, c2, order, src, h1, h2, ho, h3, hs, hkp⟩ := h
  obtain ⟨hc', c1', c2', order', src', h1', h2', ho', h3', hs', hkp'⟩ := h'
  obtain ⟨st1, Ms, e1, hM, hS⟩ := C12_crystal he hc h1 h2 ho h3 hs hkp
  obtain ⟨st1', Ms', e1', hM', hS'⟩ := C12_crystal he hc' h1' h2' ho' h3' hs' hkp'
  rw [hst, Option.some.injEq] at e1
  rw [hst', Option.some.injEq] at e1'
  subst e1 e1'
  exact scatters_carry hE hH (layers_carry hL hM hM') hS hS' (outer_carry (hQ er) hk) (outer_carry (hQ et) hk)

/-- The incident amplitudes depend on the direction of incidence only. -/
theorem incident_direction {a b k0 er : ℝ} (hk0 : 0 < k0) {te tm : ℂ} {inc : Vec2 N}
    (hpos : 0 < er - (a / k0) ^ 2 - (b / k0) ^ 2)
    (h : incident N te tm ⟨a, b, star (csqrt (((k0 : ℝ) : ℂ) ^ 2 * er - (a : ℂ) ^ 2 - (b : ℂ) ^ 2))⟩ = .ok inc)
    (hab : (a = 0 ∧ b = 0) ∨ (1 / 10 ^ 8) ^ 2 ≤ a ^ 2 + b ^ 2) :
    let x := a / k0
    let y := b / k0
    let z := Real.sqrt (er - x ^ 2 - y ^ 2)
    let t := Real.sqrt (x ^ 2 + y ^ 2)
    let K := Real.sqrt er
    (x = 0 ∧ y = 0 ∧ inc = Sum.elim
        (fun i : Fin N => (if (i : ℕ) = (N - 1) / 2 then 1 else 0) * (te / polNorm te tm))
        (fun i : Fin N => (if (i : ℕ) = (N - 1) / 2 then 1 else 0) * (tm / polNorm te tm))) ∨
    (0 < t ∧ inc = Sum.elim
        (fun i : Fin N => (if (i : ℕ) = (N - 1) / 2 then 1 else 0) *
          (te / polNorm te tm * (-y / t : ℝ) + tm / polNorm te tm * (x * z / (t * K) : ℝ)))
        (fun i : Fin N => (if (i : ℕ) = (N - 1) / 2 then 1 else 0) *
          (te / polNorm te tm * (x / t : ℝ) + tm / polNorm te tm * (y * z / (t * K) : ℝ)))) := by
  intro x y z t K
  have hx : a = k0 * x := by simp only [x]; field_simp
  have hy : b = k0 * y := by simp only [y]; field_simp
  have hz0 : 0 < z := Real.sqrt_pos.2 hpos
  have hz2 : z ^ 2 = er - x ^ 2 - y ^ 2 := Real.sq_sqrt hpos.le
  have her : 0 < er := by nlinarith [sq_nonneg x, sq_nonneg y, sq_nonneg z]
  have hK0 : 0 < K := Real.sqrt_pos.2 her
  have hK2 : K ^ 2 = er := Real.sq_sqrt her.le
  have hkz : star (csqrt (((k0 : ℝ) : ℂ) ^ 2 * er - (a : ℂ) ^ 2 - (b : ℂ) ^ 2)) = ((k0 * z : ℝ) : ℂ) := by
    rw [show ((k0 : ℝ) : ℂ) ^ 2 * er - (a : ℂ) ^ 2 - (b : ℂ) ^ 2 = ((k0 ^ 2 * (er - x ^ 2 - y ^ 2) : ℝ) : ℂ) by
      rw [hx, hy]; push_cast; ring, star_csqrt_ofReal, outerKz_mul_sq hk0, outerKz_pos hpos]
    push_cast; rfl
  rw [hkz] at h
  obtain ⟨hN, hpn, aTE, aTM, hpol, hinc⟩ := incident_eq_ok.1 h
  rcases hab with ⟨h1, h2⟩ | hab
  · left
    have hx0 : x = 0 := by simp [x, h1]
    have hy0 : y = 0 := by simp [y, h2]
    rw [polarisations_small (by simp [h1, h2])] at hpol
    simp only [Except.ok.injEq, Prod.mk.injEq] at hpol
    obtain ⟨rfl, rfl⟩ := hpol
    refine ⟨hx0, hy0, ?_⟩
    rw [hinc]
    simp
  · right
    have ht0 : 0 < t := by
      refine Real.sqrt_pos.2 ?_
      by_contra hc
      have : x ^ 2 + y ^ 2 = 0 := le_antisymm (not_lt.1 hc) (by positivity)
      have h2 : a ^ 2 + b ^ 2 = 0 := by rw [hx, hy]; linear_combination k0 ^ 2 * this
      rw [h2] at hab
      norm_num at hab
    have ht2 : t ^ 2 = x ^ 2 + y ^ 2 := Real.sq_sqrt (by positivity)
    have hs : (k0 * t) ^ 2 = a ^ 2 + b ^ 2 := by rw [hx, hy]; linear_combination k0 ^ 2 * ht2
    have hs0 : 1 / 10 ^ 8 ≤ k0 * t := by
      rw [← hs] at hab
      exact (pow_le_pow_iff_left₀ (by positivity) (by positivity) two_ne_zero).1 hab
    rw [polarisations_large hs hs0 (K := k0 * K) (by linear_combination k0 ^ 2 * (hK2 - ht2 - hz2)) (by positivity)] at hpol
    simp only [Except.ok.injEq, Prod.mk.injEq] at hpol
    obtain ⟨rfl, rfl⟩ := hpol
    refine ⟨ht0, ?_⟩
    rw [hinc]
    have e1 : -b / (k0 * t) = -y / t := by rw [hy]; field_simp
    have e2 : a / (k0 * t) = x / t := by rw [hx]; field_simp
    have e3 : a * (k0 * z) / (k0 * t * (k0 * K)) = x * z / (t * K) := by rw [hx]; field_simp
    have e4 : b * (k0 * z) / (k0 * t * (k0 * K)) = y * z / (t * K) := by rw [hy]; field_simp
    simp only [e1, e2, e3, e4]

end

section
variable {N : ℕ}

theorem Fluxes.ext' {f f' : Crystal.Fluxes N} (h1 : ∀ i, f'.Rg i = f.Rg i) (h2 : ∀ i, f'.Tg i = f.Tg i)
    (r : f.R = ∑ i, f.Rg i) (r' : f'.R = ∑ i, f'.Rg i) (t : f.T = ∑ i, f.Tg i) (t' : f'.T = ∑ i, f'.Tg i) : f' = f := by
  have e1 : f'.Rg = f.Rg := funext h1
  have e2 : f'.Tg = f.Tg := funext h2
  have e3 : f'.R = f.R := by rw [r', r, e1]
  have e4 : f'.T = f.T := by rw [t', t, e2]
  cases f; cases f'
  simp only at e1 e2 e3 e4
  simp only [e1, e2, e3, e4]

theorem norm_turn (a : ℝ) (x y : ℂ) : ‖(Real.cos a : ℂ) * x - Real.sin a * y‖ ^ 2 +
    ‖(Real.sin a : ℂ) * x + Real.cos a * y‖ ^ 2 = ‖x‖ ^ 2 + ‖y‖ ^ 2 := by
  have h := Real.cos_sq_add_sin_sq a
  simp only [normSq_re_im, Complex.sub_re, Complex.sub_im, Complex.add_re, Complex.add_im, Complex.mul_re,
    Complex.mul_im, Complex.ofReal_re, Complex.ofReal_im, zero_mul, sub_zero, add_zero]
  linear_combination (x.re ^ 2 + x.im ^ 2 + y.re ^ 2 + y.im ^ 2) * h

theorem waveNorm_turn (a : ℝ) {kx ky kx' ky' : Fin N → ℝ} {kz : Fin N → ℂ}
    (h1 : ∀ i, kx' i = Real.cos a * kx i - Real.sin a * ky i)
    (h2 : ∀ i, ky' i = Real.sin a * kx i + Real.cos a * ky i) (v : Vec2 N) (i : Fin N) :
    waveNorm kx' ky' kz (turned a v) i = waveNorm kx ky kz v i := by
  unfold waveNorm
  simp only [turned, Sum.elim_inl, Sum.elim_inr, norm_turn]
  congr 3
  rw [h1, h2]
  have h := cs_sq a
  simp only [Complex.ofReal_sub, Complex.ofReal_add, Complex.ofReal_mul]
  congr 1
  linear_combination (-(kx i * v (.inl i) + ky i * v (.inr i))) * h

theorem waveNorm_phase {kx ky : Fin N → ℝ} {kz : Fin N → ℂ} {d : ℂ} (hd : ‖d‖ = 1) {v w : Vec2 N} {i : Fin N}
    (h1 : w (.inl i) = d * v (.inl i)) (h2 : w (.inr i) = d * v (.inr i)) :
    waveNorm kx ky kz w i = waveNorm kx ky kz v i := by
  unfold waveNorm
  rw [h1, h2]
  have : -((kx i : ℂ) * (d * v (.inl i)) + ky i * (d * v (.inr i))) / kz i =
      d * (-(kx i * v (.inl i) + ky i * v (.inr i)) / kz i) := by ring
  rw [this, norm_mul, norm_mul, norm_mul, hd, one_mul, one_mul, one_mul]

theorem DeviceRun.fluxes {lib : NumLib} {c c3 : Crystal N} {stack : List String}
    {m : Bool ⊕ List Bool} {Ls : List (Layer N)} {er et wl : ℝ} {te tm : ℂ}
    {theta phi : ℝ} {kpo : Option (ℂ × ℂ)} {kp : R2}
    (h : DeviceRun lib c stack m Ls er et wl te tm theta phi kpo kp c3) (hwl : 0 < wl)
    {f : Crystal.Fluxes N} (hf : c3.poyntingFluxEnd = .ok f) :
    ∃ (st : Stacked (Fin N ⊕ Fin N)) (inc : Vec2 N), c3.stacked = some st ∧
      incident N te tm ⟨kp.1, kp.2, star (csqrt (((2 * Real.pi / wl : ℝ) : ℂ) ^ 2 * er - (kp.1 : ℂ) ^ 2 - (kp.2 : ℂ) ^ 2))⟩ = .ok inc ∧
      let kx := orderKx c.expansion kp wl
      let ky := orderKy c.expansion kp wl
      let x0 := er - (kp.1 / (2 * Real.pi / wl)) ^ 2 - (kp.2 / (2 * Real.pi / wl)) ^ 2
      0 < x0 ∧
      (∀ i, f.Rg i = (outerKz (er - kx i ^ 2 - ky i ^ 2)).re / Real.sqrt x0 *
        waveNorm kx ky (fun i => outerKz (er - kx i ^ 2 - ky i ^ 2)) (st.Stot.s11 *ᵥ inc) i) ∧
      (∀ i, f.Tg i = (outerKz (et - kx i ^ 2 - ky i ^ 2)).re / Real.sqrt x0 *
        waveNorm kx ky (fun i => outerKz (et - kx i ^ 2 - ky i ^ 2)) (st.Stot.s21 *ᵥ inc) i) ∧
      f.R = ∑ i, f.Rg i ∧ f.T = ∑ i, f.Tg i := by
  obtain ⟨hc, c1, c2, order, src, h1, h2, ho, h3, hs, hkp⟩ := h
  exact device_fluxes hc h1 h2 ho h3 hwl hs hkp hf

end

end Khepri
