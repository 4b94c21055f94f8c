import Verif.Lemmas.TmatWaves
import Mathlib.Analysis.Matrix.Hermitian

/-!
Power in the T-matrix formulation.
-/

set_option linter.unusedSectionVars false

namespace Khepri

open Matrix Complex

section Flow
variable {g : Type} [Fintype g] [DecidableEq g]

theorem sum_star_im (x : g → ℂ) : (∑ k, x k * star (x k)).im = 0 := by
  rw [Complex.im_sum]
  exact Finset.sum_eq_zero fun k _ => by simp; ring

/-- Poynting's theorem: how the power varies along the axis. -/
theorem tpower_rate {v : g → ℝ × ℝ} {e ei : Matrix g g ℂ} {k0 : ℝ} (f : (g ⊕ g) ⊕ (g ⊕ g) → ℂ) :
    let d := tsystem (fun k => ((v k).1, (v k).2)) e ei k0 *ᵥ f
    let ex : g → ℂ := fun k => f (.inl (.inl k))
    let ey : g → ℂ := fun k => f (.inl (.inr k))
    let s : g → ℂ := fun k => (v k).1 * f (.inr (.inr k)) - (v k).2 * f (.inr (.inl k))
    ∑ k, (d (.inl (.inl k)) * star (f (.inr (.inr k))) + f (.inl (.inl k)) * star (d (.inr (.inr k))) -
      (d (.inl (.inr k)) * star (f (.inr (.inl k))) + f (.inl (.inr k)) * star (d (.inr (.inl k))))).re =
      mu0c / k0 * (star s ⬝ᵥ ei *ᵥ s).im - k0 / mu0c * ((star ex ⬝ᵥ e *ᵥ ex).im + (star ey ⬝ᵥ e *ᵥ ey).im) := by
  intro d ex' ey' s'
  set ex : g → ℂ := fun k => f (.inl (.inl k)) with hex
  set ey : g → ℂ := fun k => f (.inl (.inr k)) with hey
  set hx : g → ℂ := fun k => f (.inr (.inl k)) with hhx
  set hy : g → ℂ := fun k => f (.inr (.inr k)) with hhy
  set s : g → ℂ := fun k => (v k).1 * hy k - (v k).2 * hx k with hs
  set t : g → ℂ := fun k => (v k).1 * ey k - (v k).2 * ex k with ht
  have hd := fun k => tsystem_mulVec (fun k => (((v k).1 : ℂ), ((v k).2 : ℂ))) e ei (k0 : ℂ) f k
  have key : ∑ k, (d (.inl (.inl k)) * star (hy k) + ex k * star (d (.inr (.inr k))) -
      (d (.inl (.inr k)) * star (hx k) + ey k * star (d (.inr (.inl k))))) =
      I * ((mu0c * k0 : ℝ) * ((∑ k, hy k * star (hy k)) + ∑ k, hx k * star (hx k)) -
        (mu0c / k0 : ℝ) * (∑ k, (ei *ᵥ s) k * star (s k)) + (1 / mu0c / k0 : ℝ) * (∑ k, t k * star (t k)) -
        (k0 / mu0c : ℝ) * ((∑ k, ex k * star ((e *ᵥ ex) k)) + ∑ k, ey k * star ((e *ᵥ ey) k))) := by
    rw [← Finset.sum_add_distrib, ← Finset.sum_add_distrib]
    simp only [mul_sub, mul_add, Finset.mul_sum]
    simp only [← Finset.sum_sub_distrib, ← Finset.sum_add_distrib]
    refine Finset.sum_congr rfl fun k _ => ?_
    obtain ⟨d1, d2, d3, d4⟩ := hd k
    simp only at d1 d2 d3 d4
    show (tsystem _ e ei k0 *ᵥ f) (.inl (.inl k)) * star (hy k) + ex k * star ((tsystem _ e ei k0 *ᵥ f) (.inr (.inr k))) -
      ((tsystem _ e ei k0 *ᵥ f) (.inl (.inr k)) * star (hx k) + ey k * star ((tsystem _ e ei k0 *ᵥ f) (.inr (.inl k)))) = _
    rw [d1, d2, d3, d4]
    have hw : (ei *ᵥ fun j => ((v j).1 : ℂ) * f (.inr (.inr j)) - (v j).2 * f (.inr (.inl j))) = ei *ᵥ s := rfl
    rw [hw]
    generalize (ei *ᵥ s) k = w
    have e1 : (e *ᵥ fun k => f (.inl (.inl k))) = e *ᵥ ex := rfl
    have e2 : (e *ᵥ fun k => f (.inl (.inr k))) = e *ᵥ ey := rfl
    rw [e1, e2]
    generalize (e *ᵥ ex) k = p
    generalize (e *ᵥ ey) k = q
    simp only [hs, ht, star_def, map_add, map_sub, map_mul, conj_I, conj_ofReal, map_div₀]
    push_cast
    simp only [hex, hey, hhx, hhy]
    ring
  rw [← Complex.re_sum, key]
  have i1 := sum_star_im hy
  have i2 := sum_star_im hx
  have i4 := sum_star_im t
  have i3 : (∑ k, (ei *ᵥ s) k * star (s k)) = star s ⬝ᵥ ei *ᵥ s := by
    simp only [dotProduct, Pi.star_apply]
    exact Finset.sum_congr rfl fun k _ => mul_comm _ _
  have i5 : ∀ x : g → ℂ, (∑ k, x k * star ((e *ᵥ x) k)).im = -(star x ⬝ᵥ e *ᵥ x).im := by
    intro x
    have h1 : ∑ k, x k * star ((e *ᵥ x) k) = star (star x ⬝ᵥ (e *ᵥ x)) := by
      simp [dotProduct, mul_comm]
    rw [h1]
    exact conj_im _
  have hs' : s' = s := rfl
  have hx' : ex' = ex := rfl
  have hy' : ey' = ey := rfl
  rw [hs', hx', hy']
  simp only [mul_re, I_re, I_im, zero_mul, zero_sub, one_mul, add_im, sub_im, mul_im, ofReal_re, ofReal_im, i1, i2, i3, i4,
    i5]
  ring

/-- The power does not vary where the permittivity is Hermitian. -/
theorem tpower_deriv {v : g → ℝ × ℝ} {e ei : Matrix g g ℂ} (he : e.IsHermitian) (hei : ei.IsHermitian) {k0 : ℝ}
    (f : (g ⊕ g) ⊕ (g ⊕ g) → ℂ) :
    let d := tsystem (fun k => ((v k).1, (v k).2)) e ei k0 *ᵥ f
    ∑ k, (d (.inl (.inl k)) * star (f (.inr (.inr k))) + f (.inl (.inl k)) * star (d (.inr (.inr k))) -
      (d (.inl (.inr k)) * star (f (.inr (.inl k))) + f (.inl (.inr k)) * star (d (.inr (.inl k))))).re = 0 := by
  intro d
  refine (tpower_rate f).trans ?_
  simp only [show ∀ x : g → ℂ, (star x ⬝ᵥ e *ᵥ x).im = 0 from he.im_star_dotProduct_mulVec_self,
    show ∀ x : g → ℂ, (star x ⬝ᵥ ei *ᵥ x).im = 0 from hei.im_star_dotProduct_mulVec_self]
  ring

theorem tpower_const {v : g → ℝ × ℝ} {e ei : Matrix g g ℂ} (he : e.IsHermitian) (hei : ei.IsHermitian) {k0 : ℝ}
    {f : ℝ → (g ⊕ g) ⊕ (g ⊕ g) → ℂ}
    (h : ∀ z i, HasDerivAt (fun t => f t i) ((tsystem (fun k => ((v k).1, (v k).2)) e ei k0 *ᵥ f z) i) z) (a b : ℝ) :
    TPower (f a) = TPower (f b) := by
  have hd : ∀ z, HasDerivAt (fun z => TPower (f z)) 0 z := by
    intro z
    have h1 := HasDerivAt.fun_sum (u := Finset.univ) fun (k : g) _ =>
      (Complex.reCLM.hasFDerivAt.comp_hasDerivAt z
        (((h z (.inl (.inl k))).mul (h z (.inr (.inr k))).star).sub ((h z (.inl (.inr k))).mul (h z (.inr (.inl k))).star)))
    have h2 := tpower_deriv (v := v) (k0 := k0) he hei (f z)
    have h3 : (∑ k : g, reCLM (((tsystem (fun k => (((v k).1 : ℂ), ((v k).2 : ℂ))) e ei k0 *ᵥ f z) (.inl (.inl k)) * star (f z (.inr (.inr k))) +
        f z (.inl (.inl k)) * star ((tsystem (fun k => (((v k).1 : ℂ), ((v k).2 : ℂ))) e ei k0 *ᵥ f z) (.inr (.inr k)))) -
        ((tsystem (fun k => (((v k).1 : ℂ), ((v k).2 : ℂ))) e ei k0 *ᵥ f z) (.inl (.inr k)) * star (f z (.inr (.inl k))) +
        f z (.inl (.inr k)) * star ((tsystem (fun k => (((v k).1 : ℂ), ((v k).2 : ℂ))) e ei k0 *ᵥ f z) (.inr (.inl k)))))) = 0 := h2
    rw [h3] at h1
    exact h1
  exact is_const_of_deriv_eq_zero (fun t => (hd t).differentiableAt) (fun t => (hd t).deriv) a b

theorem diagBlocks_mulVec (b : g → Matrix (Fin 4) (Fin 4) ℂ) (p : (g ⊕ g) ⊕ (g ⊕ g) → ℂ) (k : g) :
    (diagBlocks b *ᵥ p) (.inl (.inl k)) = b k 0 0 * p (.inl (.inl k)) + b k 0 1 * p (.inl (.inr k)) +
      (b k 0 2 * p (.inr (.inl k)) + b k 0 3 * p (.inr (.inr k))) ∧
    (diagBlocks b *ᵥ p) (.inl (.inr k)) = b k 1 0 * p (.inl (.inl k)) + b k 1 1 * p (.inl (.inr k)) +
      (b k 1 2 * p (.inr (.inl k)) + b k 1 3 * p (.inr (.inr k))) ∧
    (diagBlocks b *ᵥ p) (.inr (.inl k)) = b k 2 0 * p (.inl (.inl k)) + b k 2 1 * p (.inl (.inr k)) +
      (b k 2 2 * p (.inr (.inl k)) + b k 2 3 * p (.inr (.inr k))) ∧
    (diagBlocks b *ᵥ p) (.inr (.inr k)) = b k 3 0 * p (.inl (.inl k)) + b k 3 1 * p (.inl (.inr k)) +
      (b k 3 2 * p (.inr (.inl k)) + b k 3 3 * p (.inr (.inr k))) := by
  have hp : p = Sum.elim (Sum.elim (fun k => p (.inl (.inl k))) fun k => p (.inl (.inr k)))
      (Sum.elim (fun k => p (.inr (.inl k))) fun k => p (.inr (.inr k))) := by
    funext i; rcases i with (i | i) | (i | i) <;> rfl
  generalize (fun k => p (.inl (.inl k))) = p0 at hp
  generalize (fun k => p (.inl (.inr k))) = p1 at hp
  generalize (fun k => p (.inr (.inl k))) = p2 at hp
  generalize (fun k => p (.inr (.inr k))) = p3 at hp
  subst hp
  simp [diagBlocks, fromBlocks_mulVec, mulVec_diagonal, Sum.elim_comp_inl, Sum.elim_comp_inr]

end Flow

/-! ### Powers carried by the amplitudes -/

/-- Power of one order. -/
theorem block_power {X Y h : ℝ} (hXY : X ^ 2 + Y ^ 2 = 1) (c a0 a1 b0 b1 : ℂ) :
    let x : ℂ := X
    let y : ℂ := Y
    let hV : ℂ := h
    ((y * a0 + -(c * x) * a1 + (y * b0 + c * x * b1)) *
        star (hV * (c * y) * a0 + hV * -x * a1 + (-hV * (c * y) * b0 + hV * -x * b1)) -
      (-x * a0 + -(c * y) * a1 + (-x * b0 + c * y * b1)) *
        star (hV * (c * x) * a0 + hV * y * a1 + (-hV * (c * x) * b0 + hV * y * b1))).re =
      h * (star c * (a0 + b0) * star (a0 - b0) + c * (a1 - b1) * star (a1 + b1)).re := by
  intro x y hV
  have e : ((y * a0 + -(c * x) * a1 + (y * b0 + c * x * b1)) *
        star (hV * (c * y) * a0 + hV * -x * a1 + (-hV * (c * y) * b0 + hV * -x * b1)) -
      (-x * a0 + -(c * y) * a1 + (-x * b0 + c * y * b1)) *
        star (hV * (c * x) * a0 + hV * y * a1 + (-hV * (c * x) * b0 + hV * y * b1))) =
      (h : ℂ) * (star c * (a0 + b0) * star (a0 - b0) + c * (a1 - b1) * star (a1 + b1)) := by
    have h3 : x ^ 2 + y ^ 2 = 1 := by simp only [x, y]; exact_mod_cast hXY
    simp only [star_def, map_add, map_sub, map_mul, map_neg, x, y, hV, conj_ofReal] at h3 ⊢
    linear_combination ((h : ℂ) * (starRingEnd ℂ c * (a0 + b0) * (starRingEnd ℂ a0 - starRingEnd ℂ b0) +
      c * (a1 - b1) * (starRingEnd ℂ a1 + starRingEnd ℂ b1))) * h3
  rw [e, re_ofReal_mul]

theorem power_real {c : ℂ} (hc : c.im = 0) (a0 a1 b0 b1 : ℂ) :
    (star c * (a0 + b0) * star (a0 - b0) + c * (a1 - b1) * star (a1 + b1)).re =
      c.re * (‖a0‖ ^ 2 + ‖a1‖ ^ 2 - (‖b0‖ ^ 2 + ‖b1‖ ^ 2)) := by
  have : c = (c.re : ℂ) := Complex.ext rfl (by simpa using hc)
  rw [this]
  simp only [star_def, conj_ofReal, map_add, map_sub, ofReal_re, mul_re, add_re, mul_im, add_im, sub_re, sub_im, ofReal_im,
    conj_re, conj_im, ← Complex.normSq_eq_norm_sq, normSq_apply]
  ring

theorem power_imag {c : ℂ} (hc : c.re = 0) {a0 a1 b0 b1 : ℂ} (h : (a0 = 0 ∧ a1 = 0) ∨ (b0 = 0 ∧ b1 = 0)) :
    (star c * (a0 + b0) * star (a0 - b0) + c * (a1 - b1) * star (a1 + b1)).re = 0 := by
  rcases h with ⟨rfl, rfl⟩ | ⟨rfl, rfl⟩ <;>
  · simp only [star_def, map_add, map_sub, map_zero, mul_re, add_re, mul_im, add_im, sub_re, sub_im, zero_re, zero_im,
      conj_re, conj_im, hc]
    ring

theorem planarDir_real (a b : ℝ) : ∃ X Y : ℝ, planarDir (↑a, ↑b) = (↑X, ↑Y) ∧ X ^ 2 + Y ^ 2 = 1 := by
  have h := planarDir_unit (u := (↑a, ↑b)) a b rfl
  have : ∃ X Y : ℝ, planarDir (↑a, ↑b) = (↑X, ↑Y) := by
    unfold planarDir
    split_ifs
    · exact ⟨1, 0, by simp⟩
    · exact ⟨a / uNorm (↑a, ↑b), b / uNorm (↑a, ↑b), by push_cast; rfl⟩
  obtain ⟨X, Y, e⟩ := this
  rw [e] at h
  simp only at h
  exact ⟨X, Y, e, by exact_mod_cast h⟩

theorem computeKz_branch (gx gy : ℝ) (eps : ℂ) (wl : ℝ) (kp : ℂ × ℂ) :
    0 ≤ (computeKz gx gy eps wl kp).im ∧
      ((computeKz gx gy eps wl kp).im = 0 → 0 ≤ (computeKz gx gy eps wl kp).re) := by
  unfold computeKz
  simp only
  have h0 := csqrt_re_nonneg (eps * ((2 * Real.pi / wl : ℝ) : ℂ) ^ 2 - (uNorm (kp.1 + gx, kp.2 + gy) : ℂ) ^ 2)
  split_ifs with h
  · rcases h with h | ⟨_, h⟩
    · refine ⟨by rw [neg_im]; linarith, fun h' => ?_⟩
      simp only [neg_im] at h'
      linarith
    · linarith
  · push Not at h
    exact ⟨h.1, fun _ => h0⟩

theorem computeKz_real {eps : ℝ} (gx gy wl : ℝ) (kp : ℂ × ℂ) :
    (computeKz gx gy eps wl kp).re = 0 ∨ (computeKz gx gy eps wl kp).im = 0 := by
  have h := congrArg Complex.im (computeKz_sq gx gy eps wl kp)
  have h2 : ((eps : ℂ) * ((2 * Real.pi / wl : ℝ) : ℂ) ^ 2 - (uNorm (kp.1 + gx, kp.2 + gy) : ℂ) ^ 2).im = 0 := by
    have : ((eps : ℂ) * ((2 * Real.pi / wl : ℝ) : ℂ) ^ 2 - (uNorm (kp.1 + gx, kp.2 + gy) : ℂ) ^ 2) =
        ((eps * (2 * Real.pi / wl) ^ 2 - uNorm (kp.1 + gx, kp.2 + gy) ^ 2 : ℝ) : ℂ) := by push_cast; ring
    rw [this, ofReal_im]
  rw [h2, sq, mul_im] at h
  have : (computeKz gx gy eps wl kp).re * (computeKz gx gy eps wl kp).im = 0 := by linarith
  exact mul_eq_zero.1 this

theorem csqrt_pos {r : ℝ} (hr : 0 < r) : csqrt (r : ℂ) = (Real.sqrt r : ℂ) := by
  have h : (csqrt (r : ℂ)) ^ 2 = (Real.sqrt r : ℂ) ^ 2 := by
    rw [csqrt_sq]; norm_cast; rw [Real.sq_sqrt hr.le]
  rcases sq_eq_sq_iff_eq_or_eq_neg.1 h with h | h
  · exact h
  · have := csqrt_re_nonneg (r : ℂ)
    rw [h] at this
    simp at this
    have := Real.sqrt_pos.2 hr
    linarith

namespace TLattice
variable {l : TLattice} {wl : ℝ}

/-- Power of amplitudes in a transparent medium. -/
theorem power_V {eps : PyNum} {r : ℝ} (he : eps.val = r) (hr : 0 < r) {a b : ℝ} {V : Matrix (TIdx l.shape) (TIdx l.shape) ℂ}
    (hV : l.V eps wl (↑a, ↑b) = .ok V) {p : TIdx l.shape → ℂ}
    (hp : ∀ k, (flatT l.shape (l.kz eps wl (↑a, ↑b)) k).im = 0 ∨ (p (.inl (.inl k)) = 0 ∧ p (.inl (.inr k)) = 0) ∨
      (p (.inr (.inl k)) = 0 ∧ p (.inr (.inr k)) = 0)) :
    TPower (V *ᵥ p) = wl / (2 * Real.pi * mu0c) * ∑ k, if (flatT l.shape (l.kz eps wl (↑a, ↑b)) k).im = 0 then
      (flatT l.shape (l.kz eps wl (↑a, ↑b)) k).re * (‖p (.inl (.inl k))‖ ^ 2 + ‖p (.inl (.inr k))‖ ^ 2 -
        (‖p (.inr (.inl k))‖ ^ 2 + ‖p (.inr (.inr k))‖ ^ 2)) else 0 := by
  obtain ⟨h1, h2, rfl⟩ := V_ok hV
  rw [TPower, Finset.mul_sum]
  refine Finset.sum_congr rfl fun k _ => ?_
  obtain ⟨m1, m2, m3, m4⟩ := diagBlocks_mulVec (fun k => vBlock (l.dir (↑a, ↑b) k).1 (l.dir (↑a, ↑b) k).2
    (l.cosz eps wl (↑a, ↑b) k) (csqrt eps.val / mu0c)) p k
  rw [m1, m2, m3, m4]
  obtain ⟨X, Y, hXY, hn⟩ := planarDir_real (a + flatT l.shape l.gx k) (b + flatT l.shape l.gy k)
  have hdir : l.dir (↑a, ↑b) k = (↑X, ↑Y) := by
    rw [← hXY, dir]; push_cast; rfl
  have hroot : csqrt eps.val / mu0c = ((Real.sqrt r / mu0c : ℝ) : ℂ) := by
    rw [he, csqrt_pos hr]; push_cast; rfl
  have hcos : l.cosz eps wl (↑a, ↑b) k = ((wl / (Real.sqrt r * (2 * Real.pi)) : ℝ) : ℂ) * flatT l.shape (l.kz eps wl (↑a, ↑b)) k := by
    rw [cosz, he, csqrt_pos hr]
    push_cast
    have : (wl : ℂ) ≠ 0 := by exact_mod_cast h1
    field_simp
  rw [hroot, hcos, hdir]
  have hb := block_power (X := X) (Y := Y) (h := Real.sqrt r / mu0c) hn
    (((wl / (Real.sqrt r * (2 * Real.pi)) : ℝ) : ℂ) * flatT l.shape (l.kz eps wl (↑a, ↑b)) k)
    (p (.inl (.inl k))) (p (.inl (.inr k))) (p (.inr (.inl k))) (p (.inr (.inr k)))
  simp only [vBlock, of_apply, cons_val', cons_val_zero, cons_val_one, cons_val, cons_val_fin_one]
  refine hb.trans ?_
  have hs := Real.sqrt_pos.2 hr
  have hm := mu0c_pos
  split_ifs with hk
  · rw [power_real (by rw [im_ofReal_mul, hk, mul_zero]), re_ofReal_mul]
    field_simp
  · rw [power_imag _ ((hp k).resolve_left hk), mul_zero, mul_zero]
    rw [re_ofReal_mul]
    have := computeKz_real (eps := r) (l.gx ((k : ℕ) % l.shape.1) ((k : ℕ) / l.shape.1)) (l.gy ((k : ℕ) % l.shape.1) ((k : ℕ) / l.shape.1)) wl (↑a, ↑b)
    have hk' : (flatT l.shape (l.kz eps wl (↑a, ↑b)) k).re = 0 := by
      refine this.resolve_right (fun h => hk ?_) |> fun h => ?_
      · rw [← he] at h; exact h
      · rw [← he] at h; exact h
    rw [hk', mul_zero]

end TLattice

end Khepri
