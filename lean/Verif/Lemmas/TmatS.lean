import Verif.Spec.Tmat
import Verif.Lemmas.Redheffer

/-!
`matrix_s` and `multS`.
-/

set_option linter.unusedSectionVars false
set_option linter.unusedSimpArgs false

namespace Khepri

open Matrix

variable {n : Type} [Fintype n] [DecidableEq n]

/-- The same S-matrix in the layout of `khepri/alternative.py`. -/
def toSMat (S : Matrix (n ⊕ n) (n ⊕ n) ℂ) : SMat n :=
  ⟨S.toBlocks₂₁, S.toBlocks₂₂, S.toBlocks₁₁, S.toBlocks₁₂⟩

/-- Back. -/
def ofSMat (S : SMat n) : Matrix (n ⊕ n) (n ⊕ n) ℂ := fromBlocks S.s21 S.s22 S.s11 S.s12

theorem ofSMat_toSMat (S : Matrix (n ⊕ n) (n ⊕ n) ℂ) : ofSMat (toSMat S) = S := fromBlocks_toBlocks S

theorem toSMat_ofSMat (S : SMat n) : toSMat (ofSMat S) = S := by simp [toSMat, ofSMat]

theorem toSMat_injective {S S' : Matrix (n ⊕ n) (n ⊕ n) ℂ} (h : toSMat S = toSMat S') : S = S' := by
  rw [← ofSMat_toSMat S, h, ofSMat_toSMat]

/-- The two halves of a vector. -/
def toPort (u : n ⊕ n → ℂ) : Port n := ⟨u ∘ Sum.inl, u ∘ Sum.inr⟩

theorem elim_eq_iff {α : Type} {a b c d : n → α} : Sum.elim a b = Sum.elim c d ↔ a = c ∧ b = d := by
  constructor
  · intro h
    exact ⟨funext fun i => congrFun h (Sum.inl i), funext fun i => congrFun h (Sum.inr i)⟩
  · rintro ⟨rfl, rfl⟩; rfl

theorem blocks_mulVec (S : Matrix (n ⊕ n) (n ⊕ n) ℂ) (a b : n → ℂ) :
    S *ᵥ Sum.elim a b = Sum.elim (S.toBlocks₁₁ *ᵥ a + S.toBlocks₁₂ *ᵥ b) (S.toBlocks₂₁ *ᵥ a + S.toBlocks₂₂ *ᵥ b) := by
  conv_lhs => rw [← fromBlocks_toBlocks S]
  rw [fromBlocks_mulVec]
  rfl

theorem tscatters_iff (S : Matrix (n ⊕ n) (n ⊕ n) ℂ) (u v : n ⊕ n → ℂ) :
    TScatters S u v ↔ Scatters (toSMat S) (toPort u) (toPort v) := by
  rw [TScatters, blocks_mulVec, elim_eq_iff]
  exact and_comm

theorem toPort_surj (p : Port n) : ∃ u, toPort u = p := ⟨Sum.elim p.fwd p.bwd, rfl⟩

theorem tscatters_ext {S S' : Matrix (n ⊕ n) (n ⊕ n) ℂ} (h : ∀ u v, TScatters S u v → TScatters S' u v) : S = S' := by
  refine toSMat_injective (SMat.ext_scatters fun p q hpq => ?_)
  obtain ⟨u, rfl⟩ := toPort_surj p
  obtain ⟨v, rfl⟩ := toPort_surj q
  exact (tscatters_iff _ _ _).1 (h u v ((tscatters_iff _ _ _).2 hpq))

/-- `multS` is `redheffer_product` in another layout. -/
theorem multS_eq (S1 S2 : Matrix (n ⊕ n) (n ⊕ n) ℂ) :
    multS S1 S2 = (redheffer (toSMat S1) (toSMat S2)).map ofSMat := by
  by_cases h : (1 - S2.toBlocks₂₁ * S1.toBlocks₁₂).det = 0
  · have h' : (1 - S1.toBlocks₁₂ * S2.toBlocks₂₁).det = 0 := by rwa [det_one_sub_comm]
    rw [redheffer_err_of_det (A := toSMat S1) (B := toSMat S2) h]
    simp only [multS, npSolve_err h']
    rfl
  · have h' : (1 - S1.toBlocks₁₂ * S2.toBlocks₂₁).det ≠ 0 := by rwa [det_one_sub_comm]
    rw [redheffer_ok_of_det (A := toSMat S1) (B := toSMat S2) h]
    simp only [multS, npSolve_ok h']
    have e1 := push_through h
    have e2 : (1 - S2.toBlocks₂₁ * S1.toBlocks₁₂)⁻¹ =
        1 + S2.toBlocks₂₁ * ((1 - S1.toBlocks₁₂ * S2.toBlocks₂₁)⁻¹ * S1.toBlocks₁₂) := by
      rw [← Matrix.mul_assoc, e1, Matrix.mul_assoc]
      have := inv_mul_of_det h
      rw [Matrix.mul_sub, Matrix.mul_one, sub_eq_iff_eq_add] at this
      exact this
    show Except.ok _ = Except.ok _
    congr 1
    simp only [ofSMat, redhefferVal, toSMat]
    congr 1
    · rw [← e1]
      simp only [Matrix.mul_assoc]
    · rw [e2]
      simp only [Matrix.mul_assoc]

theorem multS_eq_ok {S1 S2 S : Matrix (n ⊕ n) (n ⊕ n) ℂ} :
    multS S1 S2 = .ok S ↔ redheffer (toSMat S1) (toSMat S2) = .ok (toSMat S) := by
  rw [multS_eq]
  cases h : redheffer (toSMat S1) (toSMat S2) with
  | error e => simp [Except.map]
  | ok R =>
    simp only [Except.map, Except.ok.injEq]
    constructor
    · rintro rfl; rw [toSMat_ofSMat]
    · rintro rfl; rw [ofSMat_toSMat]

theorem multS_chain {S1 S2 S : Matrix (n ⊕ n) (n ⊕ n) ℂ} (h : multS S1 S2 = .ok S) (u w : n ⊕ n → ℂ) :
    TScatters S u w ↔ ∃ v, TScatters S1 u v ∧ TScatters S2 v w := by
  obtain ⟨hd, he⟩ := redheffer_eq_ok.1 (multS_eq_ok.1 h)
  rw [tscatters_iff, he, scatters_redhefferVal hd]
  constructor
  · rintro ⟨q, h1, h2⟩
    obtain ⟨v, rfl⟩ := toPort_surj q
    exact ⟨v, (tscatters_iff _ _ _).2 h1, (tscatters_iff _ _ _).2 h2⟩
  · rintro ⟨v, h1, h2⟩
    exact ⟨_, (tscatters_iff _ _ _).1 h1, (tscatters_iff _ _ _).1 h2⟩

theorem matrixS_eq_ok {T S : Matrix (n ⊕ n) (n ⊕ n) ℂ} : matrixS T = .ok S ↔ T.toBlocks₁₁.det ≠ 0 ∧
    S = fromBlocks T.toBlocks₁₁⁻¹ (-T.toBlocks₁₁⁻¹ * T.toBlocks₁₂) (T.toBlocks₂₁ * T.toBlocks₁₁⁻¹)
      (T.toBlocks₂₂ + T.toBlocks₂₁ * (-T.toBlocks₁₁⁻¹ * T.toBlocks₁₂)) := by
  by_cases h : T.toBlocks₁₁.det = 0
  · have : npInv T.toBlocks₁₁ = .error .linAlg := by simp [npInv, h]
    simp only [matrixS, this, h]
    constructor
    · rintro ⟨⟩
    · rintro ⟨h, -⟩; exact absurd rfl h
  · simp only [matrixS, npInv_ok h]
    constructor
    · intro hS
      cases hS
      exact ⟨h, rfl⟩
    · rintro ⟨-, rfl⟩; rfl

theorem matrixS_error {T : Matrix (n ⊕ n) (n ⊕ n) ℂ} (h : T.toBlocks₁₁.det = 0) : matrixS T = .error .linAlg := by
  have : npInv T.toBlocks₁₁ = .error .linAlg := by simp [npInv, h]
  simp only [matrixS, this]
  rfl

theorem matrixS_relates {T S : Matrix (n ⊕ n) (n ⊕ n) ℂ} (h : matrixS T = .ok S) (u v : n ⊕ n → ℂ) :
    TScatters S u v ↔ u = T *ᵥ v := by
  obtain ⟨hd, rfl⟩ := matrixS_eq_ok.1 h
  have hu : u = Sum.elim (u ∘ Sum.inl) (u ∘ Sum.inr) := (Sum.elim_comp_inl_inr u).symm
  have hv : v = Sum.elim (v ∘ Sum.inl) (v ∘ Sum.inr) := (Sum.elim_comp_inl_inr v).symm
  rw [TScatters, blocks_mulVec, elim_eq_iff]
  conv_rhs => rw [hu, hv, blocks_mulVec, elim_eq_iff]
  generalize u ∘ Sum.inl = a at *
  generalize u ∘ Sum.inr = b at *
  generalize v ∘ Sum.inl = c at *
  generalize v ∘ Sum.inr = d at *
  simp only [toBlocks_fromBlocks₁₁, toBlocks_fromBlocks₁₂, toBlocks_fromBlocks₂₁, toBlocks_fromBlocks₂₂]
  have key : c = T.toBlocks₁₁⁻¹ *ᵥ a + (-T.toBlocks₁₁⁻¹ * T.toBlocks₁₂) *ᵥ d ↔
      a = T.toBlocks₁₁ *ᵥ c + T.toBlocks₁₂ *ᵥ d := by
    conv_rhs => rw [← sub_eq_iff_eq_add, eq_comm, mulVec_eq_iff hd, mulVec_sub, mulVec_mulVec]
    rw [Matrix.neg_mul, neg_mulVec, sub_eq_add_neg]
  constructor
  · rintro ⟨h1, h2⟩
    refine ⟨key.1 h1, ?_⟩
    rw [h2, h1]
    simp only [mulVec_add, mulVec_mulVec, add_mulVec, Matrix.mul_assoc]
    abel
  · rintro ⟨h1, h2⟩
    have h3 := key.2 h1
    refine ⟨h3, ?_⟩
    rw [h2]
    conv_lhs => rw [h3]
    simp only [mulVec_add, mulVec_mulVec, add_mulVec, Matrix.mul_assoc]
    abel

theorem toBlocks_mul₁₁ (T1 T2 : Matrix (n ⊕ n) (n ⊕ n) ℂ) :
    (T1 * T2).toBlocks₁₁ = T1.toBlocks₁₁ * T2.toBlocks₁₁ + T1.toBlocks₁₂ * T2.toBlocks₂₁ := by
  conv_lhs => rw [← fromBlocks_toBlocks T1, ← fromBlocks_toBlocks T2, fromBlocks_multiply]
  simp

/-- S-matrices compose like transfer matrices, errors included. -/
theorem multS_matrixS {T1 T2 S1 S2 : Matrix (n ⊕ n) (n ⊕ n) ℂ} (h1 : matrixS T1 = .ok S1) (h2 : matrixS T2 = .ok S2) :
    multS S1 S2 = matrixS (T1 * T2) := by
  obtain ⟨d1, e1⟩ := matrixS_eq_ok.1 h1
  obtain ⟨d2, e2⟩ := matrixS_eq_ok.1 h2
  have hdet : (T1 * T2).toBlocks₁₁.det = T1.toBlocks₁₁.det *
      (1 - S1.toBlocks₁₂ * S2.toBlocks₂₁).det * T2.toBlocks₁₁.det := by
    rw [← det_mul, ← det_mul, toBlocks_mul₁₁]
    congr 1
    rw [e1, e2]
    simp only [toBlocks_fromBlocks₁₂, toBlocks_fromBlocks₂₁]
    have i1 := mul_inv_of_det d1
    have i2 := inv_mul_of_det d2
    rw [Matrix.mul_sub, Matrix.sub_mul, Matrix.mul_one]
    have : T1.toBlocks₁₁ * (-T1.toBlocks₁₁⁻¹ * T1.toBlocks₁₂ * (T2.toBlocks₂₁ * T2.toBlocks₁₁⁻¹)) * T2.toBlocks₁₁ =
        -(T1.toBlocks₁₁ * T1.toBlocks₁₁⁻¹) * T1.toBlocks₁₂ * T2.toBlocks₂₁ * (T2.toBlocks₁₁⁻¹ * T2.toBlocks₁₁) := by
      simp only [Matrix.mul_assoc, Matrix.neg_mul, Matrix.mul_neg]
    rw [this, i1, i2]
    simp
  by_cases h : (1 - S1.toBlocks₁₂ * S2.toBlocks₂₁).det = 0
  · have hb : (1 - S2.toBlocks₂₁ * S1.toBlocks₁₂).det = 0 := by rwa [det_one_sub_comm]
    rw [matrixS_error (by rw [hdet, h]; simp), multS_eq,
      redheffer_err_of_det (A := toSMat S1) (B := toSMat S2) hb]
    rfl
  · have hb : (1 - S2.toBlocks₂₁ * S1.toBlocks₁₂).det ≠ 0 := by rwa [det_one_sub_comm]
    have hm : multS S1 S2 = .ok (ofSMat (redhefferVal (toSMat S1) (toSMat S2))) := by
      rw [multS_eq, redheffer_ok_of_det (A := toSMat S1) (B := toSMat S2) hb]; rfl
    have hs := matrixS_eq_ok.2 ⟨by rw [hdet]; exact mul_ne_zero (mul_ne_zero d1 h) d2, rfl⟩
    rw [hs, hm]
    congr 1
    refine tscatters_ext fun u w huw => ?_
    rw [multS_chain hm] at huw
    obtain ⟨v, huv, hvw⟩ := huw
    rw [matrixS_relates hs, ← mulVec_mulVec, ← (matrixS_relates h2 v w).1 hvw]
    exact (matrixS_relates h1 u v).1 huv

end Khepri
