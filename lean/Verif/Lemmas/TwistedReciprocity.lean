import Verif.Lemmas.Reciprocity
import Verif.Lemmas.EmbedRuns
import Verif.Lemmas.TwistedSymmetry
import Verif.Spec.TwistedReciprocity

set_option linter.unusedSectionVars false

/-! Reciprocity of stacks of layers of two lattices. -/

namespace Khepri

open Matrix

variable {M : ℕ}

theorem pairPos_rev (r i : Fin M) : (pairPos r i).rev = pairPos r.rev i.rev := by
  apply Fin.ext
  simp only [pairPos, finProdFinEquiv_apply_val, Fin.val_rev]
  have hr := r.2
  have hi := i.2
  obtain ⟨c, hc⟩ : ∃ c, M = r + 1 + c := ⟨M - (r + 1), by omega⟩
  have e4 : M - (r + 1) = c := by omega
  rw [e4]
  have e5 : M * M = M * r + M + M * c := by
    conv_lhs => rw [show M * M = M * (r + 1 + c) by rw [← hc]]
    ring
  omega

theorem joint_opposite {jv1 : ℝ → ℝ} {lhs rhs : Expansion M} {l : TwistedLayer M}
    {C : Matrix (Fin (M * M)) (Fin (M * M)) ℂ} (h : l.Permittivity jv1 lhs rhs C) (x y : Fin (M * M)) :
    C x.rev y.rev = C y x := by
  obtain ⟨r, i, rfl⟩ := exists_pairPos x
  obtain ⟨c, j, rfl⟩ := exists_pairPos y
  rw [pairPos_rev, pairPos_rev]
  cases l with
  | uniform eps d =>
    rw [show C = eps • 1 from h]
    simp only [Matrix.smul_apply, Matrix.one_apply, pairPos_inj, Fin.rev_inj, eq_comm]
  | first a =>
    obtain ⟨C1, h1, hC⟩ := h
    rw [hC, hC, permittivity_opposite h1]
    simp only [Fin.rev_inj, eq_comm]
  | second a =>
    obtain ⟨C1, h1, hC⟩ := h
    rw [hC, hC, permittivity_opposite h1]
    simp only [Fin.rev_inj, eq_comm]

theorem joint_unique {jv1 : ℝ → ℝ} {lhs rhs : Expansion M} {l l' : TwistedLayer M}
    {C C' : Matrix (Fin (M * M)) (Fin (M * M)) ℂ}
    (hl : l.Corresponds (fun f f' => f' = f) (fun f f' => f' = f) l') (h : l.Permittivity jv1 lhs rhs C)
    (h' : l'.Permittivity jv1 lhs rhs C') : C' = C := by
  ext x y
  obtain ⟨r, i, rfl⟩ := exists_pairPos x
  obtain ⟨c, j, rfl⟩ := exists_pairPos y
  cases l <;> cases l' <;> simp only [TwistedLayer.Corresponds] at hl
  · rw [show C = _ • 1 from h, show C' = _ • 1 from h', hl]
  · obtain ⟨C1, h1, hC⟩ := h
    obtain ⟨C2, h2, hC'⟩ := h'
    rw [hl] at h2
    rw [hC, hC', permittivity_unique h1 h2]
  · obtain ⟨C1, h1, hC⟩ := h
    obtain ⟨C2, h2, hC'⟩ := h'
    rw [hl] at h2
    rw [hC, hC', permittivity_unique h1 h2]

theorem twisted_pairing {jv1 : ℝ → ℝ} {lhs rhs : Expansion M} {k0 : ℝ} {kx ky kx' ky' : Fin (M * M) → ℝ}
    {Ls Ls' : List (TwistedLayer M)} {Ms Ms' : List (Mat2 (M * M) × Mat2 (M * M) × ℝ)}
    (hx : ∀ i, kx' i.rev = -kx i) (hy : ∀ i, ky' i.rev = -ky i) (h : List.Forall₂ TwistedLayer.Same Ls Ls')
    (hM : TwistedEquations jv1 lhs rhs kx ky k0 Ls Ms) (hM' : TwistedEquations jv1 lhs rhs kx' ky' k0 Ls' Ms') :
    List.Forall₂ (fun M1 M' => M'.1ᵀ * lorentzMat (M * M) = -(lorentzMat (M * M) * M1.1) ∧
      M'.2.1ᵀ * lorentzMat (M * M) = -(lorentzMat (M * M) * M1.2.1) ∧ M'.2.2 = M1.2.2) Ms Ms' := by
  unfold TwistedEquations at hM hM'
  induction h generalizing Ms Ms' with
  | nil => cases hM; cases hM'; exact List.Forall₂.nil
  | cons hl _ ih =>
    cases hM with
    | cons a hM =>
    cases hM' with
    | cons b hM' =>
    refine List.Forall₂.cons ?_ (ih hM hM')
    obtain ⟨C, hC, hd, rfl⟩ := a
    obtain ⟨C', hC', hd', rfl⟩ := b
    obtain rfl := joint_unique hl.1 hC hC'
    have hx' : ∀ i, ((kx' i.rev : ℝ) : ℂ) = -(kx i : ℂ) := fun i => by rw [hx]; push_cast; rfl
    have hy' : ∀ i, ((ky' i.rev : ℝ) : ℂ) = -(ky i : ℂ) := fun i => by rw [hy]; push_cast; rfl
    have h1 : ∀ i j : Fin (M * M), (1 : Matrix (Fin (M * M)) (Fin (M * M)) ℂ) i.rev j.rev =
        (1 : Matrix (Fin (M * M)) (Fin (M * M)) ℂ) j i := by
      intro i j; simp [Matrix.one_apply, Fin.rev_inj, eq_comm]
    simp only [maxwellP_eq, maxwellQ_eq]
    exact ⟨curl_lorentz hx' hy' (inv_opposite (joint_opposite hC)) h1,
      curl_lorentz hx' hy' h1 (joint_opposite hC), by rw [hl.2]⟩

section
variable {N : ℕ} {kx ky kx' ky' : Fin N → ℝ} {er et : ℝ} {S S' : SMat (Fin N ⊕ Fin N)} {i0 : Fin N} {u u' : Vec2 N}

/-- Specular reflections of two S-matrices related by Lorentz's theorem. -/
theorem reflection_of_lorentz (hx : ∀ i, kx' i.rev = -kx i) (hy : ∀ i, ky' i.rev = -ky i)
    (h : ∀ p q p' q', Scatters S p q → Scatters S' p' q' →
      lorentz (outerField kx' ky' er p') (outerField kx ky er p) =
        lorentz (outerField kx' ky' et q') (outerField kx ky et q))
    (hr : i0.rev = i0) (hpos : 0 < er - kx i0 ^ 2 - ky i0 ^ 2)
    (hu : ∀ i, i ≠ i0 → u (.inl i) = 0 ∧ u (.inr i) = 0) (hu' : ∀ i, i ≠ i0 → u' (.inl i) = 0 ∧ u' (.inr i) = 0) :
    waveDot (kx i0) (ky i0) (Real.sqrt (er - kx i0 ^ 2 - ky i0 ^ 2)) (orderOf u' i0) (orderOf (S.s11 *ᵥ u) i0) =
      waveDot (kx i0) (ky i0) (Real.sqrt (er - kx i0 ^ 2 - ky i0 ^ 2)) (orderOf u i0) (orderOf (S'.s11 *ᵥ u') i0) := by
  have := h ⟨u, S.s11 *ᵥ u⟩ ⟨S.s21 *ᵥ u, 0⟩ ⟨u', S'.s11 *ᵥ u'⟩ ⟨S'.s21 *ᵥ u', 0⟩ (by simp [Scatters]) (by simp [Scatters])
  rw [lorentz_outer _ hx hy, lorentz_outer _ hx hy] at this
  simp only [mulVec_zero, dotProduct_zero, zero_dotProduct, sub_zero, mul_zero] at this
  have hz : (Real.sqrt (er - kx i0 ^ 2 - ky i0 ^ 2) : ℂ) ≠ 0 := by exact_mod_cast (Real.sqrt_pos.2 hpos).ne'
  rw [lorentzV_spec hr hpos _ _ (Or.inl hu'), lorentzV_spec hr hpos _ _ (Or.inr hu)] at this
  rw [waveDot_comm _ _ _ (orderOf u i0)]
  have h2 := (mul_eq_zero.1 this).resolve_left two_ne_zero
  rw [← mul_sub] at h2
  exact sub_eq_zero.1 ((mul_eq_zero.1 h2).resolve_left (mul_ne_zero Complex.I_ne_zero hz))

/-- Specular transmissions of two S-matrices, one turned over, related by Lorentz's theorem. -/
theorem transmission_of_lorentz (hx : ∀ i, kx' i.rev = -kx i) (hy : ∀ i, ky' i.rev = -ky i)
    (h : ∀ p q p' q', Scatters S p q → Scatters S' p' q' →
      lorentz (outerField kx' ky' er q'.flip) (outerField kx ky er p) =
        lorentz (outerField kx' ky' et p'.flip) (outerField kx ky et q))
    (hr : i0.rev = i0) (hpos : 0 < er - kx i0 ^ 2 - ky i0 ^ 2) (hpos' : 0 < et - kx i0 ^ 2 - ky i0 ^ 2)
    (hu : ∀ i, i ≠ i0 → u (.inl i) = 0 ∧ u (.inr i) = 0) (hu' : ∀ i, i ≠ i0 → u' (.inl i) = 0 ∧ u' (.inr i) = 0) :
    Real.sqrt (et - kx i0 ^ 2 - ky i0 ^ 2) *
        waveDot (kx i0) (ky i0) (Real.sqrt (et - kx i0 ^ 2 - ky i0 ^ 2)) (orderOf u' i0) (orderOf (S.s21 *ᵥ u) i0) =
      Real.sqrt (er - kx i0 ^ 2 - ky i0 ^ 2) *
        waveDot (kx i0) (ky i0) (Real.sqrt (er - kx i0 ^ 2 - ky i0 ^ 2)) (orderOf u i0) (orderOf (S'.s21 *ᵥ u') i0) := by
  have := h ⟨u, S.s11 *ᵥ u⟩ ⟨S.s21 *ᵥ u, 0⟩ ⟨u', S'.s11 *ᵥ u'⟩ ⟨S'.s21 *ᵥ u', 0⟩ (by simp [Scatters]) (by simp [Scatters])
  rw [lorentz_outer _ hx hy, lorentz_outer _ hx hy] at this
  simp only [Port.flip, mulVec_zero, dotProduct_zero, zero_dotProduct, zero_sub] at this
  rw [lorentzV_spec hr hpos _ _ (Or.inr hu), lorentzV_spec hr hpos' _ _ (Or.inl hu')] at this
  rw [waveDot_comm _ _ _ (orderOf u i0)]
  have h2 := neg_injective (mul_left_cancel₀ two_ne_zero this)
  rw [mul_assoc, mul_assoc] at h2
  exact (mul_left_cancel₀ Complex.I_ne_zero h2).symm

end

end Khepri
