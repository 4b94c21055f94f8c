import Verif.Lemmas.TmatTurned
import Verif.Lemmas.TmatStack
import Verif.Props.TmatPassive

/-!
Devices of lossy layers always have an S-matrix.
-/

set_option linter.unusedSectionVars false

namespace Khepri

open Matrix Complex

section
variable {g : Type} [Fintype g] [DecidableEq g]

/-- Two parts between which a wave would be trapped: none, if the first absorbs whatever reaches it. -/
theorem lossy_cascade {Va Vb Vc S1 S2 : Matrix ((g ⊕ g) ⊕ (g ⊕ g)) ((g ⊕ g) ⊕ (g ⊕ g)) ℂ}
    (h1 : TLossyPart Va Vb S1) (c1 : ∀ v, TScatters S1 0 v → v = 0) (h2 : TPassive Vb Vc S2)
    (sa : ∀ p, TPower (Va *ᵥ Sum.elim 0 p) ≤ 0) (sc : ∀ p, 0 ≤ TPower (Vc *ᵥ Sum.elim p 0)) :
    ∃ S, multS S1 S2 = .ok S := by
  have hdet : (1 - S2.toBlocks₂₁ * S1.toBlocks₁₂).det ≠ 0 := by
    intro hd
    obtain ⟨z, hz0, hz⟩ := Matrix.exists_mulVec_eq_zero_iff.2 hd
    rw [sub_mulVec, one_mulVec, sub_eq_zero] at hz
    set x := S1.toBlocks₁₂ *ᵥ z with hx
    have t1 : TScatters S1 (Sum.elim 0 (S1.toBlocks₂₂ *ᵥ z)) (Sum.elim x z) := by
      rw [TScatters]
      simp only [Sum.elim_comp_inl, Sum.elim_comp_inr, blocks_mulVec, mulVec_zero, zero_add, ← hx]
    have t2 : TScatters S2 (Sum.elim x z) (Sum.elim (S2.toBlocks₁₁ *ᵥ x) 0) := by
      rw [TScatters]
      simp only [Sum.elim_comp_inl, Sum.elim_comp_inr, blocks_mulVec, mulVec_zero, add_zero]
      have e : S2.toBlocks₂₁ *ᵥ x = z := by rw [hx, mulVec_mulVec, ← hz]
      rw [e]
    by_cases hu : (Sum.elim 0 (S1.toBlocks₂₂ *ᵥ z) : (g ⊕ g) ⊕ (g ⊕ g) → ℂ) = 0
    · rw [hu] at t1
      have := c1 _ t1
      exact hz0 (funext fun i => congrFun this (.inr i))
    · have l1 := h1 _ _ t1 hu
      have l2 := h2 _ _ t2
      exact absurd (l2.trans_lt l1) (not_lt.2 ((sa _).trans (sc _)))
  exact ⟨ofSMat (redhefferVal (toSMat S1) (toSMat S2)), multS_eq_ok.2 (redheffer_eq_ok.2 ⟨hdet, toSMat_ofSMat _⟩)⟩

/-- The same without losses, if waves carry power in every order on the left. -/
theorem propagating_cascade {Va Vb Vc S1 S2 : Matrix ((g ⊕ g) ⊕ (g ⊕ g)) ((g ⊕ g) ⊕ (g ⊕ g)) ℂ}
    (h1 : TPassive Va Vb S1) (c1 : ∀ v, TScatters S1 0 v → v = 0) (h2 : TPassive Vb Vc S2)
    (sa : ∀ p, p ≠ 0 → TPower (Va *ᵥ Sum.elim 0 p) < 0) (sc : ∀ p, 0 ≤ TPower (Vc *ᵥ Sum.elim p 0)) :
    ∃ S, multS S1 S2 = .ok S := by
  have hdet : (1 - S2.toBlocks₂₁ * S1.toBlocks₁₂).det ≠ 0 := by
    intro hd
    obtain ⟨z, hz0, hz⟩ := Matrix.exists_mulVec_eq_zero_iff.2 hd
    rw [sub_mulVec, one_mulVec, sub_eq_zero] at hz
    set x := S1.toBlocks₁₂ *ᵥ z with hx
    have t1 : TScatters S1 (Sum.elim 0 (S1.toBlocks₂₂ *ᵥ z)) (Sum.elim x z) := by
      rw [TScatters]
      simp only [Sum.elim_comp_inl, Sum.elim_comp_inr, blocks_mulVec, mulVec_zero, zero_add, ← hx]
    have t2 : TScatters S2 (Sum.elim x z) (Sum.elim (S2.toBlocks₁₁ *ᵥ x) 0) := by
      rw [TScatters]
      simp only [Sum.elim_comp_inl, Sum.elim_comp_inr, blocks_mulVec, mulVec_zero, add_zero]
      have e : S2.toBlocks₂₁ *ᵥ x = z := by rw [hx, mulVec_mulVec, ← hz]
      rw [e]
    by_cases hu : S1.toBlocks₂₂ *ᵥ z = 0
    · rw [hu, show (Sum.elim 0 0 : (g ⊕ g) ⊕ (g ⊕ g) → ℂ) = 0 by funext i; rcases i with i | i <;> rfl] at t1
      have := c1 _ t1
      exact hz0 (funext fun i => congrFun this (.inr i))
    · exact absurd ((h2 _ _ t2).trans (h1 _ _ t1)) (not_le.2 ((sa _ hu).trans_le (sc _)))
  exact ⟨ofSMat (redhefferVal (toSMat S1) (toSMat S2)), multS_eq_ok.2 (redheffer_eq_ok.2 ⟨hdet, toSMat_ofSMat _⟩)⟩

end

namespace TLattice
variable {jv1 : ℝ → ℝ} {pw : ℕ × ℕ} {a1 a2 : R2} {ei ee : PyNum} {l : TLattice} {wl a b : ℝ}

theorem kz_sum_ne {α β : ℝ} (hα : 0 < α) (hβ : 0 < β) (eps eps' : PyNum) (kp : ℂ × ℂ) (k : Fin (l.shape.1 * l.shape.2))
    (hk : flatT l.shape (l.kz eps wl kp) k ≠ 0) :
    (α : ℂ) * flatT l.shape (l.kz eps wl kp) k + β * flatT l.shape (l.kz eps' wl kp) k ≠ 0 := by
  have b1 := computeKz_branch (l.gx ((k : ℕ) % l.shape.1) ((k : ℕ) / l.shape.1))
    (l.gy ((k : ℕ) % l.shape.1) ((k : ℕ) / l.shape.1)) eps.val wl kp
  have b2 := computeKz_branch (l.gx ((k : ℕ) % l.shape.1) ((k : ℕ) / l.shape.1))
    (l.gy ((k : ℕ) % l.shape.1) ((k : ℕ) / l.shape.1)) eps'.val wl kp
  have h1 : 0 ≤ (flatT l.shape (l.kz eps wl kp) k).im ∧ ((flatT l.shape (l.kz eps wl kp) k).im = 0 →
    0 ≤ (flatT l.shape (l.kz eps wl kp) k).re) := b1
  have h2 : 0 ≤ (flatT l.shape (l.kz eps' wl kp) k).im ∧ ((flatT l.shape (l.kz eps' wl kp) k).im = 0 →
    0 ≤ (flatT l.shape (l.kz eps' wl kp) k).re) := b2
  generalize flatT l.shape (l.kz eps wl kp) k = z at *
  generalize flatT l.shape (l.kz eps' wl kp) k = z' at *
  intro e
  have eim := congrArg Complex.im e
  have ere := congrArg Complex.re e
  simp only [add_im, im_ofReal_mul, zero_im, add_re, re_ofReal_mul, zero_re] at eim ere
  have i1 := mul_nonneg hα.le h1.1
  have i2 := mul_nonneg hβ.le h2.1
  have z1 : z.im = 0 := by
    have : α * z.im = 0 := by linarith
    exact (mul_eq_zero.1 this).resolve_left hα.ne'
  have z2 : z'.im = 0 := by
    have : β * z'.im = 0 := by linarith
    exact (mul_eq_zero.1 this).resolve_left hβ.ne'
  have r1 := mul_nonneg hα.le (h1.2 z1)
  have r2 := mul_nonneg hβ.le (h2.2 z2)
  have : α * z.re = 0 := by linarith
  exact hk (Complex.ext ((mul_eq_zero.1 this).resolve_left hα.ne') z1)

/-- When every order propagates, backward waves carry power backwards. -/
theorem power_neg {r : ℝ} (he : l.epsI.val = r) (hr : 0 < r) (hw : 0 < wl) {V : Matrix (TIdx l.shape) (TIdx l.shape) ℂ}
    (hV : l.V l.epsI wl (↑a, ↑b) = .ok V) (hk0 : ∀ k, flatT l.shape (l.kz l.epsI wl (↑a, ↑b)) k ≠ 0)
    (hk : ∀ k, (flatT l.shape (l.kz l.epsI wl (↑a, ↑b)) k).im = 0)
    (p : Fin (l.shape.1 * l.shape.2) ⊕ Fin (l.shape.1 * l.shape.2) → ℂ) (hp : p ≠ 0) : TPower (V *ᵥ Sum.elim 0 p) < 0 := by
  have hc : 0 < wl / (2 * Real.pi * mu0c) := div_pos hw (by have := mu0c_pos; positivity)
  have hre : ∀ k, 0 < (flatT l.shape (l.kz l.epsI wl (↑a, ↑b)) k).re := fun k => by
    have b1 : (flatT l.shape (l.kz l.epsI wl (↑a, ↑b)) k).im = 0 → 0 ≤ (flatT l.shape (l.kz l.epsI wl (↑a, ↑b)) k).re :=
      (computeKz_branch (l.gx ((k : ℕ) % l.shape.1) ((k : ℕ) / l.shape.1))
        (l.gy ((k : ℕ) % l.shape.1) ((k : ℕ) / l.shape.1)) l.epsI.val wl (↑a, ↑b)).2
    exact lt_of_le_of_ne (b1 (hk k)) fun e => hk0 k (Complex.ext e.symm (hk k))
  rw [power_V he hr hV fun k => .inl (hk k)]
  refine mul_neg_of_pos_of_neg hc ?_
  simp only [hk, if_true, Sum.elim_inl, Sum.elim_inr, Pi.zero_apply, norm_zero]
  obtain ⟨i, hi⟩ := Function.ne_iff.1 hp
  have hle : ∀ k, (flatT l.shape (l.kz l.epsI wl (↑a, ↑b)) k).re *
      ((0 : ℝ) ^ 2 + 0 ^ 2 - (‖p (.inl k)‖ ^ 2 + ‖p (.inr k)‖ ^ 2)) ≤ 0 := fun k => by
    have := (hre k).le
    have h1 := sq_nonneg ‖p (.inl k)‖
    have h2 := sq_nonneg ‖p (.inr k)‖
    exact mul_nonpos_of_nonneg_of_nonpos this (by linarith)
  refine Finset.sum_neg' (fun k _ => hle k) ?_
  rcases i with k | k
  · refine ⟨k, Finset.mem_univ _, mul_neg_of_pos_of_neg (hre k) ?_⟩
    have h1 : 0 < ‖p (.inl k)‖ ^ 2 := by have := norm_pos_iff.2 hi; positivity
    have h2 := sq_nonneg ‖p (.inr k)‖
    linarith
  · refine ⟨k, Finset.mem_univ _, mul_neg_of_pos_of_neg (hre k) ?_⟩
    have h1 : 0 < ‖p (.inr k)‖ ^ 2 := by have := norm_pos_iff.2 hi; positivity
    have h2 := sq_nonneg ‖p (.inl k)‖
    linarith

theorem rooted_pos {eps : PyNum} {r : ℝ} (he : eps.val = r) (hr : 0 < r) : Rooted eps := by
  cases eps with
  | float x =>
    have : x = r := by simpa [PyNum.val] using he
    simp only [Rooted]; linarith
  | complex z => trivial

theorem cosz_pos {eps : PyNum} {r : ℝ} (he : eps.val = r) (hr : 0 < r) (hw : wl ≠ 0) (kp : ℂ × ℂ) (k : Fin (l.shape.1 * l.shape.2)) :
    l.cosz eps wl kp k = ((wl / (Real.sqrt r * (2 * Real.pi)) : ℝ) : ℂ) * flatT l.shape (l.kz eps wl kp) k := by
  rw [cosz, he, csqrt_pos hr]
  push_cast
  have : (wl : ℂ) ≠ 0 := by exact_mod_cast hw
  field_simp

/-- The interface between transparent media exists. -/
theorem interface_exists {ri re : ℝ} (hi : l.epsI.val = ri) (hri : 0 < ri) (he : l.epsE.val = re) (hre : 0 < re) (hw : 0 < wl)
    (hk0 : ∀ k, flatT l.shape (l.kz l.epsI wl (↑a, ↑b)) k ≠ 0) : ∃ S, tmatInterface l wl (↑a, ↑b) = .ok S := by
  have hi0 : l.epsI.val ≠ 0 := by rw [hi]; exact_mod_cast hri.ne'
  have he0 : l.epsE.val ≠ 0 := by rw [he]; exact_mod_cast hre.ne'
  obtain ⟨U, hU⟩ := U_exists hw.ne' hi0 hk0
  obtain ⟨Vi, hVi⟩ := V_exists (kp := (↑a, ↑b)) hw.ne' hi0 (rooted_pos hi hri)
  obtain ⟨Ve, hVe⟩ := V_exists (l := l) (kp := (↑a, ↑b)) hw.ne' he0 (rooted_pos he hre)
  have hdet : (U * Ve).toBlocks₁₁.det ≠ 0 := by
    intro hd
    obtain ⟨v, hv0, hv⟩ := Matrix.exists_mulVec_eq_zero_iff.2 hd
    set p := (U * Ve).toBlocks₂₁ *ᵥ v with hp
    have hT : (U * Ve) *ᵥ Sum.elim v 0 = Sum.elim (0 : Fin (l.shape.1 * l.shape.2) ⊕ Fin (l.shape.1 * l.shape.2) → ℂ) p := by
      rw [blocks_mulVec, hv, mulVec_zero, mulVec_zero, add_zero, add_zero]
    have hVV : Vi *ᵥ Sum.elim (0 : Fin (l.shape.1 * l.shape.2) ⊕ Fin (l.shape.1 * l.shape.2) → ℂ) p = Ve *ᵥ Sum.elim v 0 := by
      rw [← hT, mulVec_mulVec, ← Matrix.mul_assoc, Vi_mul_U hU hVi, Matrix.one_mul]
    obtain ⟨-, -, rfl⟩ := V_ok hVi
    obtain ⟨-, -, rfl⟩ := V_ok hVe
    refine hv0 (funext fun i => ?_)
    have key : ∀ k, v (.inl k) = 0 ∧ v (.inr k) = 0 := by
      intro k
      have hd := dir_unit (a := a) (b := b) (l := l) k
      have ceI := cosz_pos (l := l) hi hri hw.ne' (↑a, ↑b) k
      have ceE := cosz_pos (l := l) he hre hw.ne' (↑a, ↑b) k
      have rI : csqrt l.epsI.val / mu0c = ((Real.sqrt ri / mu0c : ℝ) : ℂ) := by rw [hi, csqrt_pos hri]; push_cast; rfl
      have rE : csqrt l.epsE.val / mu0c = ((Real.sqrt re / mu0c : ℝ) : ℂ) := by rw [he, csqrt_pos hre]; push_cast; rfl
      have e1 := congrFun hVV (.inl (.inl k))
      have e2 := congrFun hVV (.inl (.inr k))
      have e3 := congrFun hVV (.inr (.inl k))
      have e4 := congrFun hVV (.inr (.inr k))
      rw [(diagBlocks_mulVec _ _ k).1, (diagBlocks_mulVec _ _ k).1] at e1
      rw [(diagBlocks_mulVec _ _ k).2.1, (diagBlocks_mulVec _ _ k).2.1] at e2
      rw [(diagBlocks_mulVec _ _ k).2.2.1, (diagBlocks_mulVec _ _ k).2.2.1] at e3
      rw [(diagBlocks_mulVec _ _ k).2.2.2, (diagBlocks_mulVec _ _ k).2.2.2] at e4
      simp only [vBlock, of_apply, cons_val', cons_val_zero, cons_val_one, cons_val, cons_val_fin_one, Sum.elim_inl, Sum.elim_inr,
        Pi.zero_apply, mul_zero, add_zero, zero_add] at e1 e2 e3 e4
      have si := Real.sqrt_pos.2 hri
      have se := Real.sqrt_pos.2 hre
      have hm := mu0c_pos
      have hpi := Real.pi_pos
      have n1 := kz_sum_ne (l := l) (wl := wl) (α := wl / (2 * Real.pi * mu0c)) (β := wl / (2 * Real.pi * mu0c)) (by positivity)
        (by positivity) l.epsI l.epsE (↑a, ↑b) k (hk0 k)
      have n2 := kz_sum_ne (l := l) (wl := wl) (α := Real.sqrt re / mu0c * (wl / (Real.sqrt ri * (2 * Real.pi))))
        (β := Real.sqrt ri / mu0c * (wl / (Real.sqrt re * (2 * Real.pi)))) (by positivity)
        (by positivity) l.epsI l.epsE (↑a, ↑b) k (hk0 k)
      have m1 : csqrt l.epsI.val / mu0c * l.cosz l.epsI wl (↑a, ↑b) k + csqrt l.epsE.val / mu0c * l.cosz l.epsE wl (↑a, ↑b) k ≠ 0 := by
        rw [rI, rE, ceI, ceE]
        convert n1 using 2
        · rw [← mul_assoc, ← ofReal_mul]
          congr 2
          field_simp
        · rw [← mul_assoc, ← ofReal_mul]
          congr 2
          field_simp
      have m2 : csqrt l.epsE.val / mu0c * l.cosz l.epsI wl (↑a, ↑b) k + csqrt l.epsI.val / mu0c * l.cosz l.epsE wl (↑a, ↑b) k ≠ 0 := by
        rw [rI, rE, ceI, ceE]
        convert n2 using 2
        · rw [← mul_assoc, ← ofReal_mul]
        · rw [← mul_assoc, ← ofReal_mul]
      clear ceI ceE rI rE n1 n2
      generalize csqrt l.epsI.val / (mu0c : ℂ) = hI at *
      generalize csqrt l.epsE.val / (mu0c : ℂ) = hE at *
      generalize l.cosz l.epsI wl (↑a, ↑b) k = cI at *
      generalize l.cosz l.epsE wl (↑a, ↑b) k = cE at *
      generalize (l.dir (↑a, ↑b) k).1 = x at *
      generalize (l.dir (↑a, ↑b) k).2 = y at *
      generalize v (.inl k) = v0 at *
      generalize v (.inr k) = v1 at *
      generalize p (.inl k) = p0 at *
      generalize p (.inr k) = p1 at *
      have q0 : p0 = v0 := by linear_combination y * e1 - x * e2 + (v0 - p0) * hd
      have q1 : hE * cE * v0 + hI * cI * p0 = 0 := by
        linear_combination -x * e3 - y * e4 - (hE * cE * v0 + hI * cI * p0) * hd
      have q2 : cE * v1 + cI * p1 = 0 := by linear_combination x * e1 + y * e2 - (cE * v1 + cI * p1) * hd
      have q3 : hI * p1 = hE * v1 := by linear_combination y * e3 - x * e4 + (hE * v1 - hI * p1) * hd
      constructor
      · have : (hI * cI + hE * cE) * v0 = 0 := by rw [q0] at q1; linear_combination q1
        exact (mul_eq_zero.1 this).resolve_left m1
      · have : (hE * cI + hI * cE) * v1 = 0 := by linear_combination hI * q2 - cI * q3
        exact (mul_eq_zero.1 this).resolve_left m2
    rcases i with k | k
    · exact (key k).1
    · exact (key k).2
  unfold tmatInterface
  rw [hU, hVe]
  exact ⟨_, matrixS_eq_ok.2 ⟨hdet, rfl⟩⟩

end TLattice

end Khepri
