import Verif.Lemmas.TmatDevice
import Verif.Lemmas.TmatMore

/-! The interface of the slice formulation in closed form. -/

set_option linter.unusedSectionVars false

namespace Khepri

open Matrix Complex

section
variable {g : Type} [Fintype g] [DecidableEq g]

theorem matrixS_mirror {A B : g → ℂ} (hA : ∀ i, A i ≠ 0) :
    matrixS (fromBlocks (diagonal A) (diagonal B) (diagonal B) (diagonal A)) = .ok (fromBlocks (diagonal fun i => (A i)⁻¹)
      (diagonal fun i => -(B i / A i)) (diagonal fun i => B i / A i) (diagonal fun i => A i - B i ^ 2 / A i)) := by
  have hinv : (diagonal A)⁻¹ = diagonal fun i => (A i)⁻¹ := by
    refine Matrix.inv_eq_right_inv ?_
    rw [diagonal_mul_diagonal, ← diagonal_one]
    congr 1
    funext i
    exact mul_inv_cancel₀ (hA i)
  rw [matrixS_eq_ok]
  simp only [toBlocks_fromBlocks₁₁, toBlocks_fromBlocks₁₂, toBlocks_fromBlocks₂₁, toBlocks_fromBlocks₂₂, hinv]
  refine ⟨by rw [det_diagonal]; exact Finset.prod_ne_zero_iff.2 fun i _ => hA i, ?_⟩
  simp only [diagonal_neg, diagonal_mul_diagonal, diagonal_add]
  congr 2 <;> funext i <;> simp only [div_eq_mul_inv] <;> ring

theorem diagBlocks_mirror {p q r s : g → ℂ} :
    diagBlocks (fun k => !![p k, 0, q k, 0; 0, r k, 0, s k; q k, 0, p k, 0; 0, s k, 0, r k]) =
      fromBlocks (diagonal (Sum.elim p r)) (diagonal (Sum.elim q s)) (diagonal (Sum.elim q s)) (diagonal (Sum.elim p r)) := by
  simp [diagBlocks, ← fromBlocks_diagonal]

end

namespace TLattice
variable {l : TLattice} {wl a b : ℝ}

theorem vBlock_mirror {x y cI cE hI hE ρ η γ : ℂ} (h1 : hE * cE = ρ * (hI * cI)) (h2 : hE = η * hI) (h3 : cE = γ * cI) :
    vBlock x y cI hI * !![(1 + ρ) / 2, 0, (1 - ρ) / 2, 0; 0, (η + γ) / 2, 0, (η - γ) / 2; (1 - ρ) / 2, 0, (1 + ρ) / 2, 0;
      0, (η - γ) / 2, 0, (η + γ) / 2] = vBlock x y cE hE := by
  have h4 : hE * (cE * x) = ρ * (hI * (cI * x)) := by linear_combination x * h1
  have h5 : hE * (cE * y) = ρ * (hI * (cI * y)) := by linear_combination y * h1
  ext i j
  fin_cases i <;> fin_cases j <;> simp [vBlock, Matrix.mul_apply, Fin.sum_univ_four, h4, h5] <;>
    first
      | ring1
      | (rw [h3]; ring1)
      | (rw [h2]; ring1)

/-- What the interface is, with `kI`, `kE` the normal wave numbers of an order on both sides. -/
theorem interface_closed {rI rE : ℝ} (hI : l.epsI.val = rI) (hI0 : 0 < rI) (hE : l.epsE.val = rE) (hE0 : 0 < rE)
    {U Vi Ve : Matrix (TIdx l.shape) (TIdx l.shape) ℂ} (hU : l.U wl (↑a, ↑b) = .ok U) (hVi : l.V l.epsI wl (↑a, ↑b) = .ok Vi)
    (hVe : l.V l.epsE wl (↑a, ↑b) = .ok Ve)
    (hs : ∀ k, flatT l.shape (l.kz l.epsI wl (↑a, ↑b)) k + flatT l.shape (l.kz l.epsE wl (↑a, ↑b)) k ≠ 0)
    (hp : ∀ k, rE * flatT l.shape (l.kz l.epsI wl (↑a, ↑b)) k + rI * flatT l.shape (l.kz l.epsE wl (↑a, ↑b)) k ≠ 0) :
    let kI := flatT l.shape (l.kz l.epsI wl (↑a, ↑b))
    let kE := flatT l.shape (l.kz l.epsE wl (↑a, ↑b))
    let w : ℂ := (Real.sqrt rI * Real.sqrt rE : ℝ)
    tmatInterface l wl (↑a, ↑b) = .ok (fromBlocks
      (diagonal (Sum.elim (fun k => 2 * kI k / (kI k + kE k)) (fun k => 2 * w * kI k / (rE * kI k + rI * kE k))))
      (diagonal (Sum.elim (fun k => (kE k - kI k) / (kI k + kE k)) (fun k => (rI * kE k - rE * kI k) / (rE * kI k + rI * kE k))))
      (diagonal (Sum.elim (fun k => (kI k - kE k) / (kI k + kE k)) (fun k => (rE * kI k - rI * kE k) / (rE * kI k + rI * kE k))))
      (diagonal (Sum.elim (fun k => 2 * kE k / (kI k + kE k)) (fun k => 2 * w * kE k / (rE * kI k + rI * kE k))))) := by
  intro kI kE w
  obtain ⟨hw, -, hk, -⟩ := U_ok hU
  have hUV := U_mul_Vi hU hVi
  obtain ⟨-, -, eI⟩ := V_ok hVi
  obtain ⟨-, -, eE⟩ := V_ok hVe
  have hwl : (wl : ℂ) ≠ 0 := by exact_mod_cast hw
  have hpi : (Real.pi : ℂ) ≠ 0 := by exact_mod_cast Real.pi_ne_zero
  have hmu : (mu0c : ℂ) ≠ 0 := by exact_mod_cast mu0c_pos.ne'
  set nI : ℂ := ((Real.sqrt rI : ℝ) : ℂ) with hnI
  set nE : ℂ := ((Real.sqrt rE : ℝ) : ℂ) with hnE
  have rI2 : (rI : ℂ) = nI ^ 2 := by rw [hnI, ← ofReal_pow, Real.sq_sqrt hI0.le]
  have rE2 : (rE : ℂ) = nE ^ 2 := by rw [hnE, ← ofReal_pow, Real.sq_sqrt hE0.le]
  have hnI0 : nI ≠ 0 := by rw [hnI]; exact_mod_cast (Real.sqrt_pos.2 hI0).ne'
  have hnE0 : nE ≠ 0 := by rw [hnE]; exact_mod_cast (Real.sqrt_pos.2 hE0).ne'
  have cI : csqrt l.epsI.val = nI := by rw [hI, csqrt_pos hI0]
  have cE : csqrt l.epsE.val = nE := by rw [hE, csqrt_pos hE0]
  have hww : w = nI * nE := by simp [w, hnI, hnE]
  have hp' : ∀ k, nE ^ 2 * kI k + nI ^ 2 * kE k ≠ 0 := fun k => by rw [← rI2, ← rE2]; exact hp k
  have hV : Vi * diagBlocks (fun k => !![(1 + kE k / kI k) / 2, 0, (1 - kE k / kI k) / 2, 0;
      0, (nE / nI + kE k * nI / (kI k * nE)) / 2, 0, (nE / nI - kE k * nI / (kI k * nE)) / 2;
      (1 - kE k / kI k) / 2, 0, (1 + kE k / kI k) / 2, 0;
      0, (nE / nI - kE k * nI / (kI k * nE)) / 2, 0, (nE / nI + kE k * nI / (kI k * nE)) / 2]) = Ve := by
    rw [eI, eE, diagBlocks_mul]
    congr 1
    funext k
    have hk1 : kI k ≠ 0 := hk k
    refine vBlock_mirror ?_ ?_ ?_ <;> simp only [cosz, cI, cE] <;>
      (try rw [show flatT l.shape (l.kz l.epsI wl (↑a, ↑b)) k = kI k from rfl]) <;>
      (try rw [show flatT l.shape (l.kz l.epsE wl (↑a, ↑b)) k = kE k from rfl]) <;> push_cast <;> field_simp
  have hUVe : U * Ve = diagBlocks (fun k => !![(1 + kE k / kI k) / 2, 0, (1 - kE k / kI k) / 2, 0;
      0, (nE / nI + kE k * nI / (kI k * nE)) / 2, 0, (nE / nI - kE k * nI / (kI k * nE)) / 2;
      (1 - kE k / kI k) / 2, 0, (1 + kE k / kI k) / 2, 0;
      0, (nE / nI - kE k * nI / (kI k * nE)) / 2, 0, (nE / nI + kE k * nI / (kI k * nE)) / 2]) := by
    rw [← hV, ← Matrix.mul_assoc, hUV, Matrix.one_mul]
  have s0 : ∀ k, (1 + kE k / kI k) / 2 = (kI k + kE k) / (2 * kI k) := fun k => by
    have hk1 : kI k ≠ 0 := hk k
    field_simp
  have s1 : ∀ k, (1 - kE k / kI k) / 2 = (kI k - kE k) / (2 * kI k) := fun k => by
    have hk1 : kI k ≠ 0 := hk k
    field_simp
  have p0 : ∀ k, (nE / nI + kE k * nI / (kI k * nE)) / 2 = (nE ^ 2 * kI k + nI ^ 2 * kE k) / (2 * (nI * nE) * kI k) := fun k => by
    have hk1 : kI k ≠ 0 := hk k
    field_simp
  have p1 : ∀ k, (nE / nI - kE k * nI / (kI k * nE)) / 2 = (nE ^ 2 * kI k - nI ^ 2 * kE k) / (2 * (nI * nE) * kI k) := fun k => by
    have hk1 : kI k ≠ 0 := hk k
    field_simp
  rw [tmatInterface, hU, ok_bind, hVe, ok_bind, hUVe]
  simp only [s0, s1, p0, p1]
  rw [diagBlocks_mirror, matrixS_mirror]
  · rw [rI2, rE2, hww]
    congr 3 <;> funext i <;> rcases i with k | k <;> simp only [Sum.elim_inl, Sum.elim_inr] <;>
      (have hk1 : kI k ≠ 0 := hk k
       have hs1 : kI k + kE k ≠ 0 := hs k
       have hp1 := hp' k
       field_simp
       try ring)
  · rintro (k | k)
    · exact div_ne_zero (hs k) (mul_ne_zero two_ne_zero (hk k))
    · exact div_ne_zero (hp' k) (mul_ne_zero (mul_ne_zero two_ne_zero (mul_ne_zero hnI0 hnE0)) (hk k))

/-- A normal wave number of a real permittivity is on one of the two half axes. -/
theorem kz_axes {eps : PyNum} {r : ℝ} (he : eps.val = r) (k : Fin (l.shape.1 * l.shape.2)) :
    let z := flatT l.shape (l.kz eps wl (↑a, ↑b)) k
    0 ≤ z.re ∧ 0 ≤ z.im ∧ z.re * z.im = 0 := by
  intro z
  have hz2 : z ^ 2 = ((r * (2 * Real.pi / wl) ^ 2 - uNorm ((a : ℂ) + l.gx (k % l.shape.1) (k / l.shape.1),
      (b : ℂ) + l.gy (k % l.shape.1) (k / l.shape.1)) ^ 2 : ℝ) : ℂ) := by
    have := computeKz_sq (l.gx (k % l.shape.1) (k / l.shape.1)) (l.gy (k % l.shape.1) (k / l.shape.1)) eps.val wl (↑a, ↑b)
    rw [he] at this
    have e : z = computeKz (l.gx (k % l.shape.1) (k / l.shape.1)) (l.gy (k % l.shape.1) (k / l.shape.1)) r wl (↑a, ↑b) := by
      simp only [z, flatT, TLattice.kz, he]
    rw [e, this]
    push_cast
    ring
  have him : (z ^ 2).im = 0 := by rw [hz2, ofReal_im]
  have h0 : z.re * z.im = 0 := by
    rw [pow_two, mul_im] at him
    linarith
  have hb := computeKz_branch (l.gx (k % l.shape.1) (k / l.shape.1)) (l.gy (k % l.shape.1) (k / l.shape.1)) eps.val wl (↑a, ↑b)
  refine ⟨?_, hb.1, h0⟩
  rcases mul_eq_zero.1 h0 with h | h
  · exact h.ge
  · exact hb.2 h

/-- Sums of such numbers do not cancel. -/
theorem axes_add_ne {z w : ℂ} (hz : 0 ≤ z.re ∧ 0 ≤ z.im ∧ z.re * z.im = 0) (hw : 0 ≤ w.re ∧ 0 ≤ w.im ∧ w.re * w.im = 0)
    (h : z ≠ 0) {s t : ℝ} (hs : 0 < s) (ht : 0 < t) : (s : ℂ) * z + t * w ≠ 0 := by
  intro e
  have e1 := congrArg Complex.re e
  have e2 := congrArg Complex.im e
  simp only [add_re, add_im, re_ofReal_mul, im_ofReal_mul, zero_re, zero_im] at e1 e2
  refine h (Complex.ext ?_ ?_)
  · have := mul_nonneg ht.le hw.1
    have := mul_nonneg hs.le hz.1
    have h0 : s * z.re = 0 := by linarith
    simpa using (mul_eq_zero.1 h0).resolve_left hs.ne'
  · have := mul_nonneg ht.le hw.2.1
    have := mul_nonneg hs.le hz.2.1
    have h0 : s * z.im = 0 := by linarith
    simpa using (mul_eq_zero.1 h0).resolve_left hs.ne'

end TLattice

end Khepri
