import Verif.Lemmas.LayerBVP
import Mathlib.Analysis.SpecialFunctions.Exponential

set_option linter.unusedSectionVars false

namespace Khepri

open Matrix

variable {n : Type} [Fintype n] [DecidableEq n]

/-- `[[W, W], [-V, V]]`: from amplitudes to fields. -/
def modeMat (W V : Matrix n n ℂ) : Matrix (n ⊕ n) (n ⊕ n) ℂ := fromBlocks W W (-V) V

theorem modeMat_mulVec (W V : Matrix n n ℂ) (p : Port n) :
    modeMat W V *ᵥ Sum.elim p.fwd p.bwd = Sum.elim (fieldOf W V p).E (fieldOf W V p).H := by
  simp only [modeMat, fieldOf, fromBlocks_mulVec]
  congr 1
  · rw [mulVec_add]; rfl
  · rw [mulVec_sub, neg_mulVec]; simp only [Sum.elim_comp_inl, Sum.elim_comp_inr]; abel

theorem modeMat_isUnit {W V : Matrix n n ℂ} (hW : W.det ≠ 0) (hV : V.det ≠ 0) :
    IsUnit (modeMat W V) := by
  have h : modeMat W V * ((1 / 2 : ℂ) • fromBlocks W⁻¹ (-V⁻¹) W⁻¹ V⁻¹) = 1 := by
    rw [modeMat, Matrix.mul_smul, fromBlocks_multiply]
    simp only [mul_inv_of_det hW, mul_inv_of_det hV, Matrix.mul_neg, Matrix.neg_mul, neg_neg,
      neg_add_cancel]
    rw [← fromBlocks_one, fromBlocks_smul]
    congr 1 <;> module
  exact IsUnit.of_mul_eq_one _ h

theorem modal_iff_maxwell {W V P Q : Matrix n n ℂ} {lam : n → ℂ} (hW : W.det ≠ 0) (hV : V.det ≠ 0)
    (hP : P * V = W * diagonal lam) (hQ : Q * W = V * diagonal lam) (t : ℝ) (F G : Tang n) :
    ModalTransfer W V lam t F G ↔ MaxwellTransfer P Q t F G := by
  set R := modeMat W V with hR
  have hU : IsUnit R := modeMat_isUnit hW hV
  have hUd : IsUnit R.det := (Matrix.isUnit_iff_isUnit_det R).1 hU
  set D : n ⊕ n → ℂ := Sum.elim (fun i => -(lam i * t)) (fun i => lam i * t) with hD
  have hN : ((t : ℂ) • fromBlocks 0 P Q 0 : Matrix (n ⊕ n) (n ⊕ n) ℂ) = R * diagonal D * R⁻¹ := by
    have : ((t : ℂ) • fromBlocks 0 P Q 0 : Matrix (n ⊕ n) (n ⊕ n) ℂ) * R = R * diagonal D := by
      have hDd : diagonal D = fromBlocks ((-(t : ℂ)) • diagonal lam) 0 0 ((t : ℂ) • diagonal lam) := by
        rw [hD]
        ext i j
        rcases i with i | i <;> rcases j with j | j <;>
          by_cases h : i = j <;> simp [fromBlocks, h] <;> ring
      rw [hDd, hR, modeMat, Matrix.smul_mul, fromBlocks_multiply, fromBlocks_multiply,
        fromBlocks_smul]
      simp only [Matrix.zero_mul, zero_add, Matrix.mul_neg, hP, hQ, Matrix.mul_zero, add_zero,
        Matrix.mul_smul, Matrix.neg_mul, neg_smul, smul_neg, neg_neg, neg_zero,
        add_zero]
    rw [← this, Matrix.mul_assoc, Matrix.mul_nonsing_inv _ hUd, Matrix.mul_one]
  have hexp : NormedSpace.exp ((t : ℂ) • fromBlocks 0 P Q 0 : Matrix (n ⊕ n) (n ⊕ n) ℂ) =
      R * diagonal (fun i => Complex.exp (D i)) * R⁻¹ := by
    rw [hN, Matrix.exp_conj _ _ hU, Matrix.exp_diagonal]
    congr 3
    funext i
    rw [Pi.coe_exp, Complex.exp_eq_exp_ℂ]
  unfold MaxwellTransfer
  rw [hexp]
  constructor
  · rintro ⟨a, b, rfl, rfl, h1, h2⟩
    rw [← modeMat_mulVec, ← modeMat_mulVec, ← hR, mulVec_mulVec, Matrix.mul_assoc,
      Matrix.nonsing_inv_mul _ hUd, Matrix.mul_one, ← mulVec_mulVec]
    congr 1
    funext i
    rw [mulVec_diagonal]
    rcases i with i | i
    · simp [hD, h1]
    · simp [hD, h2]
  · intro h
    obtain ⟨a, ha⟩ := fieldOf_surjective hW hV F
    obtain ⟨b, hb⟩ := fieldOf_surjective hW hV G
    refine ⟨a, b, ha, hb, ?_⟩
    rw [ha, hb, ← modeMat_mulVec, ← modeMat_mulVec, ← hR, mulVec_mulVec, Matrix.mul_assoc,
      Matrix.nonsing_inv_mul _ hUd, Matrix.mul_one, ← mulVec_mulVec] at h
    have h' : Sum.elim b.fwd b.bwd = diagonal (fun i => Complex.exp (D i)) *ᵥ Sum.elim a.fwd a.bwd := by
      have := congrArg (R⁻¹ *ᵥ ·) h
      simpa only [mulVec_mulVec, ← Matrix.mul_assoc, Matrix.nonsing_inv_mul _ hUd, one_mulVec,
        Matrix.one_mul] using this
    constructor
    · intro i
      have := congrFun h' (Sum.inl i)
      rw [mulVec_diagonal] at this
      simpa [hD] using this
    · intro i
      have := congrFun h' (Sum.inr i)
      rw [mulVec_diagonal] at this
      simpa [hD] using this

end Khepri
