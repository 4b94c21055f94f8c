import Verif.Spec.Fields
import Verif.Lemmas.Stack

set_option linter.unusedSectionVars false

namespace Khepri

open Matrix

variable {n : Type} [Fintype n] [DecidableEq n]

/-- Amplitudes in a medium that carry the field of gap amplitudes `p`. -/
theorem fieldOf_eq_iff {W V W0 V0 : Matrix n n ℂ} (hW : W.det ≠ 0) (hV : V.det ≠ 0) (p a : Port n) :
    fieldOf W0 V0 p = fieldOf W V a ↔
      (2 : ℂ) • a.fwd = (W⁻¹ * W0 + V⁻¹ * V0) *ᵥ p.fwd + (W⁻¹ * W0 - V⁻¹ * V0) *ᵥ p.bwd ∧
      (2 : ℂ) • a.bwd = (W⁻¹ * W0 - V⁻¹ * V0) *ᵥ p.fwd + (W⁻¹ * W0 + V⁻¹ * V0) *ᵥ p.bwd := by
  have h1 : fieldOf W0 V0 p = fieldOf W V a ↔
      a.fwd + a.bwd = (W⁻¹ * W0) *ᵥ (p.fwd + p.bwd) ∧
      a.bwd - a.fwd = (V⁻¹ * V0) *ᵥ (p.bwd - p.fwd) := by
    simp only [fieldOf, Tang.mk.injEq]
    rw [eq_comm, mulVec_eq_iff hW, eq_comm (a := V0 *ᵥ _), mulVec_eq_iff hV, mulVec_mulVec,
      mulVec_mulVec]
  rw [h1]
  simp only [add_mulVec, sub_mulVec, mulVec_add, mulVec_sub]
  generalize (W⁻¹ * W0) *ᵥ p.fwd = x1
  generalize (W⁻¹ * W0) *ᵥ p.bwd = x2
  generalize (V⁻¹ * V0) *ᵥ p.fwd = y1
  generalize (V⁻¹ * V0) *ᵥ p.bwd = y2
  constructor
  · rintro ⟨e1, e2⟩
    constructor
    · have : (2 : ℂ) • a.fwd = (a.fwd + a.bwd) - (a.bwd - a.fwd) := by rw [two_smul]; abel
      rw [this, e1, e2]; abel
    · have : (2 : ℂ) • a.bwd = (a.fwd + a.bwd) + (a.bwd - a.fwd) := by rw [two_smul]; abel
      rw [this, e1, e2]; abel
  · rintro ⟨e1, e2⟩
    have two : ∀ {u v : n → ℂ}, (2 : ℂ) • u = (2 : ℂ) • v → u = v := fun h =>
      smul_right_injective (n → ℂ) (two_ne_zero' ℂ) h
    constructor
    · apply two
      rw [smul_add, e1, e2, two_smul]; abel
    · apply two
      rw [smul_sub, e1, e2, two_smul]; abel

theorem fieldOf_injective {W V : Matrix n n ℂ} (hW : W.det ≠ 0) (hV : V.det ≠ 0) {a b : Port n}
    (h : fieldOf W V a = fieldOf W V b) : a = b := by
  rw [fieldOf_eq_iff hW hV] at h
  rw [inv_mul_of_det hW, inv_mul_of_det hV] at h
  obtain ⟨h1, h2⟩ := h
  have two : ∀ {u v : n → ℂ}, (2 : ℂ) • u = (2 : ℂ) • v → u = v := fun h =>
    smul_right_injective (n → ℂ) (two_ne_zero' ℂ) h
  simp only [sub_self, zero_mulVec, add_zero, zero_add, add_mulVec, one_mulVec] at h1 h2
  rw [← two_smul ℂ] at h1 h2
  exact (Port.ext (two h1) (two h2)).symm

theorem fieldOf_surjective {W V : Matrix n n ℂ} (hW : W.det ≠ 0) (hV : V.det ≠ 0) (F : Tang n) :
    ∃ p, F = fieldOf W V p := by
  refine ⟨⟨(1 / 2 : ℂ) • (W⁻¹ *ᵥ F.E - V⁻¹ *ᵥ F.H), (1 / 2 : ℂ) • (W⁻¹ *ᵥ F.E + V⁻¹ *ᵥ F.H)⟩, ?_⟩
  apply Tang.ext
  · have : (1 / 2 : ℂ) • (W⁻¹ *ᵥ F.E - V⁻¹ *ᵥ F.H) + (1 / 2 : ℂ) • (W⁻¹ *ᵥ F.E + V⁻¹ *ᵥ F.H) =
        W⁻¹ *ᵥ F.E := by
      module
    simp only [fieldOf, this, mulVec_mulVec, mul_inv_of_det hW, one_mulVec]
  · have : (1 / 2 : ℂ) • (W⁻¹ *ᵥ F.E + V⁻¹ *ᵥ F.H) - (1 / 2 : ℂ) • (W⁻¹ *ᵥ F.E - V⁻¹ *ᵥ F.H) =
        V⁻¹ *ᵥ F.H := by
      module
    simp only [fieldOf, this, mulVec_mulVec, mul_inv_of_det hV, one_mulVec]

/-- The diagonal matrix of forward propagation factors. -/
noncomputable def propX (lam : n → ℂ) (t : ℝ) : Matrix n n ℂ :=
  diagonal fun i => Complex.exp (-(lam i * t))

theorem buildScatmat_eq_ok {W V W0 V0 : Matrix n n ℂ} {lam : n → ℂ} {d k0 : ℝ} {S : SMat n} :
    buildScatmat W V W0 V0 lam d k0 = .ok S ↔
      ∃ A B X T : Matrix n n ℂ, A = W⁻¹ * W0 + V⁻¹ * V0 ∧ B = W⁻¹ * W0 - V⁻¹ * V0 ∧
        X = propX lam (d * k0) ∧ T = A - X * B * (A⁻¹ * X) * B ∧
        W.det ≠ 0 ∧ V.det ≠ 0 ∧ A.det ≠ 0 ∧ T.det ≠ 0 ∧
        S.s11 = T⁻¹ * (X * B * (A⁻¹ * X) * A - B) ∧ S.s12 = T⁻¹ * (X * (A - B * (A⁻¹ * B))) ∧
        S.s21 = S.s12 ∧ S.s22 = S.s11 := by
  have hX : (diagonal fun i => Complex.exp (-lam i * d * k0)) = propX lam (d * k0) := by
    unfold propX
    congr 1; funext i; congr 1; push_cast; ring
  obtain ⟨s11, s12, s21, s22⟩ := S
  simp only [buildScatmat, bind_eq_ok, npSolve_eq_ok, hX]
  constructor
  · rintro ⟨_, ⟨h1, rfl⟩, _, ⟨h2, rfl⟩, _, ⟨h3, rfl⟩, _, ⟨h4, rfl⟩, _, ⟨-, rfl⟩, _, ⟨-, rfl⟩, h⟩
    simp only [pure, Except.pure, Except.ok.injEq, SMat.mk.injEq] at h
    obtain ⟨rfl, rfl, rfl, rfl⟩ := h
    exact ⟨_, _, _, _, rfl, rfl, rfl, rfl, h1, h2, h3, h4, rfl, rfl, rfl, rfl⟩
  · rintro ⟨A, B, X, T, rfl, rfl, rfl, rfl, h1, h2, h3, h4, rfl, rfl, rfl, rfl⟩
    exact ⟨_, ⟨h1, rfl⟩, _, ⟨h2, rfl⟩, _, ⟨h3, rfl⟩, _, ⟨h4, rfl⟩, _, ⟨h3, rfl⟩, _, ⟨h4, rfl⟩, rfl⟩

theorem layerBVP_iff {W V W0 V0 : Matrix n n ℂ} (hW : W.det ≠ 0) (hV : V.det ≠ 0) (lam : n → ℂ)
    (t : ℝ) (p q : Port n) {A B X : Matrix n n ℂ} (hA : A = W⁻¹ * W0 + V⁻¹ * V0)
    (hB : B = W⁻¹ * W0 - V⁻¹ * V0) (hX : X = propX lam t) :
    LayerBVP W V W0 V0 lam t p q ↔
      A *ᵥ q.fwd + B *ᵥ q.bwd = X *ᵥ (A *ᵥ p.fwd + B *ᵥ p.bwd) ∧
      B *ᵥ p.fwd + A *ᵥ p.bwd = X *ᵥ (B *ᵥ q.fwd + A *ᵥ q.bwd) := by
  have two : ∀ {u v : n → ℂ}, (2 : ℂ) • u = (2 : ℂ) • v ↔ u = v := fun {u v} =>
    ⟨fun h => smul_right_injective (n → ℂ) (two_ne_zero' ℂ) h, fun h => by rw [h]⟩
  simp only [LayerBVP, ModalTransfer, fieldOf_eq_iff hW hV, ← hA, ← hB]
  have hXv : ∀ v : n → ℂ, X *ᵥ v = fun i => Complex.exp (-(lam i * t)) * v i := by
    intro v; funext i; rw [hX, propX, mulVec_diagonal]
  constructor
  · rintro ⟨a, b, ⟨h1, h2⟩, ⟨h3, h4⟩, h5, h6⟩
    rw [← h1, ← h2, ← h3, ← h4]
    rw [mulVec_smul, mulVec_smul, two, two, hXv, hXv]
    refine ⟨funext h5, funext fun i => ?_⟩
    simp only [h6, ← mul_assoc, ← Complex.exp_add]
    simp
  · rintro ⟨h1, h2⟩
    refine ⟨⟨(1 / 2 : ℂ) • (A *ᵥ p.fwd + B *ᵥ p.bwd), (1 / 2 : ℂ) • (B *ᵥ p.fwd + A *ᵥ p.bwd)⟩,
      ⟨(1 / 2 : ℂ) • (A *ᵥ q.fwd + B *ᵥ q.bwd), (1 / 2 : ℂ) • (B *ᵥ q.fwd + A *ᵥ q.bwd)⟩,
      ⟨by simp [smul_smul], by simp [smul_smul]⟩, ⟨by simp [smul_smul], by simp [smul_smul]⟩, ?_, ?_⟩
    · intro i
      have := congrFun h1 i
      rw [hXv] at this
      simp only [Pi.smul_apply, smul_eq_mul, this]
      ring
    · intro i
      have := congrFun h2 i
      rw [hXv] at this
      simp only [Pi.smul_apply, smul_eq_mul, this]
      have e : Complex.exp (lam i * t) * Complex.exp (-(lam i * t)) = 1 := by
        rw [← Complex.exp_add]; simp
      linear_combination (-(1 / 2 : ℂ) * (B *ᵥ q.fwd + A *ᵥ q.bwd) i) * e

/-- The two matrix identities satisfied by the blocks of `build_scatmat`. -/
theorem buildScatmat_blocks {A B X T s11 s12 : Matrix n n ℂ} (hA : A.det ≠ 0) (hT : T.det ≠ 0)
    (hTdef : T = A - X * B * (A⁻¹ * X) * B)
    (h11 : s11 = T⁻¹ * (X * B * (A⁻¹ * X) * A - B))
    (h12 : s12 = T⁻¹ * (X * (A - B * (A⁻¹ * B)))) :
    A * s12 - X * B * s11 - X * A = 0 ∧ A * s11 - X * B * s12 + B = 0 := by
  have hAi := inv_mul_of_det hA
  have hAi' := mul_inv_of_det hA
  have e11 : T * s11 = X * B * (A⁻¹ * X) * A - B := by
    rw [h11, ← Matrix.mul_assoc, mul_inv_of_det hT, Matrix.one_mul]
  have e12 : T * s12 = X * (A - B * (A⁻¹ * B)) := by
    rw [h12, ← Matrix.mul_assoc, mul_inv_of_det hT, Matrix.one_mul]
  generalize A⁻¹ = Ai at *
  set U := A * s12 - X * B * s11 - X * A with hU
  set V := A * s11 - X * B * s12 + B with hV
  have r1 : V + X * B * Ai * U = 0 := by
    have : V + X * B * Ai * U = (A - X * B * (Ai * X) * B) * s11 +
        X * B * (Ai * A - 1) * s12 - X * B * (Ai * X) * A + B := by
      rw [hU, hV]; noncomm_ring
    rw [this, ← hTdef, e11, hAi]; simp
  have r2 : U + X * B * Ai * V = 0 := by
    have : U + X * B * Ai * V = (A - X * B * (Ai * X) * B) * s12 +
        X * B * (Ai * A - 1) * s11 - X * (A - B * (Ai * B)) := by
      rw [hU, hV]; noncomm_ring
    rw [this, ← hTdef, e12, hAi]; simp
  have key : ∀ Z Z' : Matrix n n ℂ, Z + X * B * Ai * Z' = 0 → Z' + X * B * Ai * Z = 0 → Z = 0 := by
    intro Z Z' h1 h2
    have : T * (Ai * Z) = 0 := by
      have : T * (Ai * Z) = (A * Ai) * Z - X * B * Ai * (X * B * Ai * Z) := by
        rw [hTdef]; noncomm_ring
      rw [this, hAi', Matrix.one_mul]
      have h3 : X * B * Ai * Z = -Z' := by rw [← add_eq_zero_iff_eq_neg, add_comm]; exact h2
      rw [h3, Matrix.mul_neg, sub_neg_eq_add]; exact h1
    have h4 : Ai * Z = 0 := by
      calc Ai * Z = (T⁻¹ * T) * (Ai * Z) := by rw [inv_mul_of_det hT, Matrix.one_mul]
        _ = 0 := by rw [Matrix.mul_assoc, this, Matrix.mul_zero]
    calc Z = A * (Ai * Z) := by rw [← Matrix.mul_assoc, hAi', Matrix.one_mul]
      _ = 0 := by rw [h4, Matrix.mul_zero]
  exact ⟨key U V r2 r1, key V U r1 r2⟩

theorem scatters_buildScatmat {W V W0 V0 : Matrix n n ℂ} {lam : n → ℂ} {d k0 : ℝ} {S : SMat n}
    (h : buildScatmat W V W0 V0 lam d k0 = .ok S) (p q : Port n) :
    Scatters S p q ↔ LayerBVP W V W0 V0 lam (d * k0) p q := by
  obtain ⟨A, B, X, T, hA, hB, hX, hT, dW, dV, dA, dT, h11, h12, h21, h22⟩ := buildScatmat_eq_ok.1 h
  rw [layerBVP_iff dW dV lam _ p q hA hB hX]
  obtain ⟨k1, k2⟩ := buildScatmat_blocks dA dT hT h11 h12
  have k1' : A * S.s12 = X * B * S.s11 + X * A := by
    rw [sub_sub, sub_eq_zero] at k1; exact k1
  have k2' : A * S.s11 = X * B * S.s12 - B := by
    rw [add_eq_zero_iff_eq_neg, sub_eq_iff_eq_add] at k2; rw [k2]; abel
  unfold Scatters
  rw [h21, h22]
  constructor
  · rintro ⟨e1, e2⟩
    constructor
    · rw [e1, e2]
      simp only [mulVec_add, mulVec_mulVec, ← Matrix.mul_assoc, k1', k2', add_mulVec, sub_mulVec]
      abel
    · rw [e1, e2]
      simp only [mulVec_add, mulVec_mulVec, ← Matrix.mul_assoc, k1', k2', add_mulVec, sub_mulVec]
      abel
  · rintro ⟨e1, e2⟩
    have hAi := inv_mul_of_det dA
    have f1 : q.fwd = A⁻¹ *ᵥ (X *ᵥ (A *ᵥ p.fwd + B *ᵥ p.bwd) - B *ᵥ q.bwd) := by
      rw [← e1, add_sub_cancel_right, mulVec_mulVec, hAi, one_mulVec]
    have f2 : p.bwd = A⁻¹ *ᵥ (X *ᵥ (B *ᵥ q.fwd + A *ᵥ q.bwd) - B *ᵥ p.fwd) := by
      rw [← e2, add_sub_cancel_left, mulVec_mulVec, hAi, one_mulVec]
    constructor
    · rw [h11, h12, ← mulVec_mulVec, ← mulVec_mulVec _ T⁻¹, ← mulVec_add, ← mulVec_eq_iff dT, hT]
      have := congrArg (A *ᵥ ·) f2
      simp only [mulVec_mulVec, mul_inv_of_det dA, one_mulVec] at this
      simp only [sub_mulVec, this]
      conv_lhs => rw [f1]
      simp only [mulVec_add, mulVec_sub, mulVec_mulVec, Matrix.mul_sub, sub_mulVec, Matrix.mul_assoc]
      abel
    · rw [h11, h12, ← mulVec_mulVec, ← mulVec_mulVec _ T⁻¹, ← mulVec_add, ← mulVec_eq_iff dT, hT]
      have := congrArg (A *ᵥ ·) f1
      simp only [mulVec_mulVec, mul_inv_of_det dA, one_mulVec] at this
      simp only [sub_mulVec, this]
      conv_lhs => rw [f2]
      simp only [mulVec_add, mulVec_sub, mulVec_mulVec, Matrix.mul_sub, sub_mulVec, Matrix.mul_assoc]
      abel

end Khepri
