import Verif.Model.Eigentricks
import Verif.Spec.Bloch
import Verif.Props.Tmat
import Mathlib.LinearAlgebra.Matrix.Polynomial
import Mathlib.Algebra.Polynomial.Roots

/-!
# C52, C64: Bloch modes from S-matrices
-/

namespace Khepri

open Matrix

section
variable {n : Type} [Fintype n] [DecidableEq n]

/-- **C52.** `Sl x = w Sr x` says that amplitudes `x` on the left of the cell become `w x` on its right. -/
theorem C52_bloch (S : Matrix (n ⊕ n) (n ⊕ n) ℂ) (w : ℂ) (x : n ⊕ n → ℂ) :
    (scatteringSplitlr S).1 *ᵥ x = w • ((scatteringSplitlr S).2 *ᵥ x) ↔ TScatters S x (w • x) := by
  obtain ⟨a, b, rfl⟩ : ∃ a b, x = Sum.elim a b := ⟨x ∘ Sum.inl, x ∘ Sum.inr, (Sum.elim_comp_inl_inr x).symm⟩
  have hs : w • Sum.elim a b = Sum.elim (w • a) (w • b) := by
    funext i; rcases i with i | i <;> rfl
  have hs' : ∀ c d : n → ℂ, w • Sum.elim c d = Sum.elim (w • c) (w • d) := by
    intro c d; funext i; rcases i with i | i <;> rfl
  rw [TScatters, hs]
  simp only [scatteringSplitlr, blocks_mulVec, toBlocks_fromBlocks₁₁, toBlocks_fromBlocks₁₂, toBlocks_fromBlocks₂₁,
    toBlocks_fromBlocks₂₂, Sum.elim_comp_inl, Sum.elim_comp_inr, hs', elim_eq_iff, zero_mulVec, one_mulVec, neg_mulVec,
    add_zero, zero_add, mulVec_smul]
  constructor
  · rintro ⟨h1, h2⟩
    constructor
    · rw [h1, smul_add, smul_neg]; abel
    · have : S.toBlocks₂₁ *ᵥ a + S.toBlocks₂₂ *ᵥ (w • b) = b := by
        rw [mulVec_smul]
        have h3 := congrArg (· + b + w • (S.toBlocks₂₂ *ᵥ b)) h2
        simp only [smul_neg] at h3
        rw [show S.toBlocks₂₁ *ᵥ a + -b + b + w • (S.toBlocks₂₂ *ᵥ b) =
          S.toBlocks₂₁ *ᵥ a + w • (S.toBlocks₂₂ *ᵥ b) by abel] at h3
        rw [h3]; abel
      rw [mulVec_smul] at this
      exact this.symm
  · rintro ⟨h1, h2⟩
    constructor
    · rw [smul_add, h1, smul_neg]; abel
    · have h3 : S.toBlocks₂₁ *ᵥ a + -b = S.toBlocks₂₁ *ᵥ a + -(S.toBlocks₂₁ *ᵥ a + w • (S.toBlocks₂₂ *ᵥ b)) := by
        rw [← h2]
      rw [h3, smul_neg]; abel

/-- **C52.** For the S-matrix of a transfer matrix, these are the eigenpairs of its inverse. -/
theorem C52_transfer {T S : Matrix (n ⊕ n) (n ⊕ n) ℂ} (h : matrixS T = .ok S) (hT : T.det ≠ 0) (w : ℂ) (x : n ⊕ n → ℂ) :
    (scatteringSplitlr S).1 *ᵥ x = w • ((scatteringSplitlr S).2 *ᵥ x) ↔ T⁻¹ *ᵥ x = w • x := by
  rw [C52_bloch, C43_same h]
  constructor
  · intro e
    conv_lhs => rw [e]
    rw [mulVec_mulVec, inv_mul_of_det hT, one_mulVec]
  · intro e
    rw [← e, mulVec_mulVec, mul_inv_of_det hT, one_mulVec]

/-- **C52.** `scattering_det(S)` is the determinant of `S`; it raises when the block it inverts is singular. -/
theorem C52_det (S : Matrix (n ⊕ n) (n ⊕ n) ℂ) :
    (S.toBlocks₂₂.det ≠ 0 → scatteringDet S = .ok S.det) ∧ (S.toBlocks₂₂.det = 0 → scatteringDet S = .error .linAlg) := by
  constructor
  · intro h
    rw [scatteringDet, npInv_ok h, ok_bind]
    simp only [pure, Except.pure, Except.ok.injEq]
    conv_rhs => rw [← fromBlocks_toBlocks S]
    have : Invertible S.toBlocks₂₂ := invertibleOfIsUnitDet _ (isUnit_iff_ne_zero.2 h)
    rw [det_fromBlocks₂₂, invOf_eq_nonsing_inv, mul_comm]
  · intro h
    have : npInv S.toBlocks₂₂ = .error .linAlg := by simp [npInv, h]
    rw [scatteringDet, this]
    rfl

/-- **C52.** The multipliers do not depend on where the cell starts: `A` then `B`, or `B` then `A`. -/
theorem C52_origin {T A B X Y : Matrix (n ⊕ n) (n ⊕ n) ℂ} (hA : matrixS T = .ok A) (hX : multS A B = .ok X)
    (hY : multS B A = .ok Y) {w : ℂ} {x : n ⊕ n → ℂ} (h : BlochMode X w x) : ∃ y, BlochMode Y w y := by
  obtain ⟨v, h1, h2⟩ := (C43_chain hX _ _).1 h.2
  have e := (C43_same hA _ _).1 h1
  refine ⟨v, fun h0 => h.1 ?_, (C43_chain hY _ _).2 ⟨w • x, h2, (C43_same hA _ _).2 ?_⟩⟩
  · rw [e, h0, mulVec_zero]
  · rw [mulVec_smul, ← e]

/-- **C52.** Taking two periods for a cell squares the multipliers; taking one more period multiplies them. -/
theorem C52_supercell {S P X : Matrix (n ⊕ n) (n ⊕ n) ℂ} (hX : multS P S = .ok X) {v w : ℂ} {x : n ⊕ n → ℂ}
    (hP : BlochMode P v x) (hS : BlochMode S w x) : BlochMode X (v * w) x := by
  refine ⟨hP.1, (C43_chain hX _ _).2 ⟨v • x, hP.2, ?_⟩⟩
  have h := hS.2
  unfold TScatters at h ⊢
  have e1 : Sum.elim (((v * w) • x) ∘ Sum.inl) ((v • x) ∘ Sum.inr) = v • Sum.elim ((w • x) ∘ Sum.inl) (x ∘ Sum.inr) := by
    funext i; rcases i with i | i <;> simp [mul_assoc]
  have e2 : Sum.elim ((v • x) ∘ Sum.inl) (((v * w) • x) ∘ Sum.inr) = v • Sum.elim (x ∘ Sum.inl) ((w • x) ∘ Sum.inr) := by
    funext i; rcases i with i | i <;> simp [mul_assoc]
  rw [e1, e2, mulVec_smul, h]

end

section
variable {g : Type} [Fintype g] [DecidableEq g]

/-- **C52.** In a lossless structure an eigenvector of the problem carries no power unless its eigenvalue has modulus
1. -/
theorem C52_lossless {V S : Matrix ((g ⊕ g) ⊕ (g ⊕ g)) ((g ⊕ g) ⊕ (g ⊕ g)) ℂ} (hS : TLossless V V S) {w : ℂ}
    {x : (g ⊕ g) ⊕ (g ⊕ g) → ℂ} (h : (scatteringSplitlr S).1 *ᵥ x = w • ((scatteringSplitlr S).2 *ᵥ x))
    (hP : TPower (V *ᵥ x) ≠ 0) : ‖w‖ = 1 := by
  have e := hS _ _ ((C52_bloch S w x).1 h)
  have hs : TPower (V *ᵥ (w • x)) = ‖w‖ ^ 2 * TPower (V *ᵥ x) := by
    rw [mulVec_smul]
    generalize V *ᵥ x = f
    unfold TPower
    rw [Finset.mul_sum]
    refine Finset.sum_congr rfl fun k _ => ?_
    simp only [Pi.smul_apply, smul_eq_mul, star_mul']
    have : ∀ p q : ℂ, w * p * (star w * star q) = ((‖w‖ ^ 2 : ℝ) : ℂ) * (p * star q) := by
      intro p q
      have hw : w * star w = ((‖w‖ ^ 2 : ℝ) : ℂ) := by
        rw [Complex.star_def, Complex.mul_conj, Complex.normSq_eq_norm_sq]
      rw [← hw]; ring
    rw [this, this, ← mul_sub, Complex.re_ofReal_mul]
  rw [hs] at e
  have h1 : ‖w‖ ^ 2 = 1 := by
    have := mul_right_cancel₀ hP ((one_mul _).trans e)
    exact this.symm
  have := norm_nonneg w
  nlinarith

end

/-! ## `band_structure` -/

section
variable {n : Type} [Fintype n] [DecidableEq n]

/-- **C64 (partial).** What `band_structure` returns: real parts of multipliers of Bloch modes, and only those within
1e-10 below 1.  What is missing: the modes themselves (see the counterexample). -/
theorem C64_partial {eig : GenEigSolver (n ⊕ n)} (he : GenEigContract eig) {S : Matrix (n ⊕ n) (n ⊕ n) ℂ}
    (hr : ∃ s : ℂ, ((scatteringSplitlr S).1 - s • (scatteringSplitlr S).2).det ≠ 0) (r : ℝ) :
    r ∈ bandStructure eig S ↔ 1 - 1 / 10 ^ 10 ≤ r ∧ r < 1 ∧ ∃ w x, BlochMode S w x ∧ w.re = r := by
  have hw : ∀ w, w ∈ scatteringEigenvalues eig S ↔ ∃ x, BlochMode S w x := by
    intro w
    unfold scatteringEigenvalues
    rw [he _ _ hr]
    simp only [BlochMode, C52_bloch]
  unfold bandStructure
  simp only [List.mem_filter, List.mem_map, hw, decide_eq_true_eq, onShell, Complex.norm_real, Real.norm_eq_abs]
  constructor
  · rintro ⟨⟨⟨⟨w, ⟨x, hx⟩, rfl⟩, h0⟩, h1⟩, h2⟩
    rw [abs_of_pos h0, abs_le] at h2
    exact ⟨by linarith [h2.1], h1, w, x, hx, rfl⟩
  · rintro ⟨h2, h1, w, x, hx, rfl⟩
    have h0 : 0 < w.re := by linarith [show (1 : ℝ) / 10 ^ 10 < 1 by norm_num]
    refine ⟨⟨⟨⟨w, ⟨x, hx⟩, rfl⟩, h0⟩, h1⟩, ?_⟩
    rw [abs_of_pos h0, abs_le]
    constructor <;> linarith [show (0 : ℝ) < 1 / 10 ^ 10 by positivity]

/-- A quarter wavelength of vacuum. -/
noncomputable def quarterCell : Matrix (Fin 1 ⊕ Fin 1) (Fin 1 ⊕ Fin 1) ℂ := fromBlocks (Complex.I • 1) 0 0 (Complex.I • 1)

theorem quarterCell_bloch : BlochMode quarterCell Complex.I (Sum.elim 1 0) := by
  refine ⟨fun h => ?_, ?_⟩
  · have := congrFun h (Sum.inl 0)
    simp at this
  · unfold TScatters quarterCell
    rw [blocks_mulVec]
    funext i
    rcases i with i | i <;> simp [smul_mulVec, Pi.smul_apply]

theorem quarterCell_regular :
    ∃ s : ℂ, ((scatteringSplitlr quarterCell).1 - s • (scatteringSplitlr quarterCell).2).det ≠ 0 := by
  refine ⟨0, ?_⟩
  simp only [scatteringSplitlr, quarterCell, toBlocks_fromBlocks₁₁, toBlocks_fromBlocks₂₁, zero_smul, sub_zero]
  rw [det_fromBlocks_zero₁₂]
  simp

/-- **C64, counterexample.** A quarter wavelength of vacuum has a Bloch mode of multiplier `i`, of modulus 1, and
`band_structure` returns nothing. -/
theorem C64_counterexample {eig : GenEigSolver (Fin 1 ⊕ Fin 1)} (he : GenEigContract eig) :
    (∃ w x, BlochMode quarterCell w x ∧ ‖w‖ = 1) ∧ bandStructure eig quarterCell = [] := by
  refine ⟨⟨_, _, quarterCell_bloch, by simp⟩, ?_⟩
  rw [List.eq_nil_iff_forall_not_mem]
  intro r hr
  obtain ⟨h1, -, w, x, ⟨h0, hx⟩, rfl⟩ := (C64_partial he quarterCell_regular r).1 hr
  unfold TScatters quarterCell at hx
  rw [blocks_mulVec, elim_eq_iff] at hx
  obtain ⟨e1, e2⟩ := hx
  have a1 := congrFun e1 0
  have a2 := congrFun e2 0
  simp [smul_mulVec] at a1 a2
  have hre : w.re = 0 := by
    rcases a1 with a1 | a1
    · rw [a1]; simp
    · by_cases hb : x (Sum.inr 0) = 0
      · exfalso
        apply h0
        funext i
        rcases i with i | i <;> (rw [Subsingleton.elim i 0]; assumption)
      · have : Complex.I * w = 1 := by
          have h3 : (Complex.I * w - 1) * x (Sum.inr 0) = 0 := by linear_combination -a2
          rcases mul_eq_zero.1 h3 with h | h
          · exact sub_eq_zero.1 h
          · exact absurd h hb
        have hw : w = -Complex.I := by
          have := congrArg (fun z => -Complex.I * z) this
          simp only [← mul_assoc, neg_mul, Complex.I_mul_I, neg_neg, one_mul, mul_one] at this
          exact this
        rw [hw]; simp
  rw [hre] at h1
  norm_num at h1

/-- The contract of the eigenvalue solver can be met: a regular pencil has finitely many eigenvalues. -/
example {m : Type} [Fintype m] [DecidableEq m] : ∃ eig : GenEigSolver m, GenEigContract eig := by
  classical
  have key : ∀ A B : Matrix m m ℂ, ∃ l : List ℂ, (∃ s : ℂ, (A - s • B).det ≠ 0) → ∀ w, w ∈ l ↔
      ∃ x, x ≠ 0 ∧ A *ᵥ x = w • (B *ᵥ x) := by
    intro A B
    by_cases h : ∃ s : ℂ, (A - s • B).det ≠ 0
    · let p : Polynomial ℂ := (A.map Polynomial.C - (Polynomial.X : Polynomial ℂ) • B.map Polynomial.C).det
      have hp : ∀ s, p.eval s = (A - s • B).det := by
        intro s
        change (Polynomial.evalRingHom s) p = _
        rw [RingHom.map_det]
        congr 1
        ext i j
        simp
        ring
      have p0 : p ≠ 0 := by
        rintro e
        obtain ⟨s, hs⟩ := h
        exact hs (by rw [← hp s, e, Polynomial.eval_zero])
      refine ⟨p.roots.toList, fun _ w => ?_⟩
      rw [Multiset.mem_toList, Polynomial.mem_roots p0, Polynomial.IsRoot, hp, ← exists_mulVec_eq_zero_iff]
      simp only [sub_mulVec, smul_mulVec, sub_eq_zero]
    · exact ⟨[], fun h' => absurd h' h⟩
  choose eig h using key
  exact ⟨eig, fun A B => h A B⟩

/-- Non-vacuity of C52: a cell with reflection, made of two layers, and a Bloch mode of it (multiplier 1/9). -/
example : ∃ (T A X : Matrix (Fin 1 ⊕ Fin 1) (Fin 1 ⊕ Fin 1) ℂ) (x : Fin 1 ⊕ Fin 1 → ℂ), matrixS T = .ok A ∧
    A.toBlocks₁₂ ≠ 0 ∧ multS A A = .ok X ∧ BlochMode X (1 / 9) x ∧ A.toBlocks₂₂.det ≠ 0 := by
  let T : Matrix (Fin 1 ⊕ Fin 1) (Fin 1 ⊕ Fin 1) ℂ := fromBlocks !![2] !![1] !![1] !![2]
  have d1 : T.toBlocks₁₁.det ≠ 0 := by simp [T]
  have d2 : (T * T).toBlocks₁₁.det ≠ 0 := by
    simp only [T, fromBlocks_multiply, toBlocks_fromBlocks₁₁, det_fin_one]
    simp [Matrix.add_apply]; norm_num
  obtain ⟨A, hA⟩ := (C43_exists T).1 d1
  obtain ⟨X, hX⟩ := (C43_exists (T * T)).1 d2
  have hAA : multS A A = .ok X := by rw [C43_compose hA hA, hX]
  have hx : T *ᵥ (fun _ => 1) = (3 : ℂ) • (fun _ => 1) := by
    funext i
    rcases i with i | i <;> simp [T, mulVec, dotProduct, Fin.eq_zero] <;> norm_num
  refine ⟨T, A, X, fun _ => 1, hA, ?_, hAA, ⟨fun h => ?_, (C43_same hX _ _).2 ?_⟩, ?_⟩
  · rw [(matrixS_eq_ok.1 hA).2]
    simp only [T, toBlocks_fromBlocks₁₁, toBlocks_fromBlocks₁₂]
    intro h
    have := congrFun (congrFun h 0) 0
    simp [Matrix.mul_apply] at this
  · simpa using congrFun h (Sum.inl 0)
  · rw [mulVec_smul, ← mulVec_mulVec, hx, mulVec_smul, hx, smul_smul, smul_smul]
    norm_num
  · rw [(matrixS_eq_ok.1 hA).2]
    simp only [T, toBlocks_fromBlocks₁₁, toBlocks_fromBlocks₁₂, toBlocks_fromBlocks₂₁, toBlocks_fromBlocks₂₂, det_fin_one]
    simp [Matrix.add_apply, vecMul, dotProduct, diagonal_mul]
    norm_num

end

end Khepri
