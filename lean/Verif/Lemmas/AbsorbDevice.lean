import Verif.Lemmas.AbsorbStack
import Verif.Lemmas.ExampleDevice
import Verif.Props.Convolution
import Verif.Props.Crystal

set_option linter.unusedSectionVars false

/-!
Devices of strictly absorbing layers between media of positive permittivity: every step of `solve` returns.
-/

namespace Khepri

open Matrix

variable {N : ℕ}

theorem real_kVectors (e : Expansion N) {wl : ℝ} (hwl : wl ≠ 0) (kp : ℝ × ℝ) :
    ∃ kz, e.kVectors ((kp.1 : ℂ), (kp.2 : ℂ)) wl 1 =
      .ok ((fun i => (orderKx e kp wl i : ℂ)), (fun i => (orderKy e kp wl i : ℂ)), kz) := by
  refine ⟨_, kVectors_eq_ok.2 ⟨hwl, ?_, ?_, rfl⟩⟩
  · funext i; simp [orderKx]
  · funext i; simp [orderKy]

section
variable {ι : Type} [Fintype ι] [DecidableEq ι] {kx ky : ι → ℝ}

theorem gap_exists (hg : ∀ i, 1 - kx i ^ 2 - ky i ^ 2 ≠ 0) : ∃ V0,
    freeSpaceEigenmodes (fun i => (kx i : ℂ)) (fun i => (ky i : ℂ)) = .ok (1, V0) := by
  refine ⟨_, freeSpaceEigenmodes_eq_ok.2 ⟨fun i => ?_, rfl, rfl⟩⟩
  exact_mod_cast hg i

theorem halfSpaceModes_exists {er : ℝ} (hg : ∀ i, er - kx i ^ 2 - ky i ^ 2 ≠ 0) : ∃ r,
    halfSpaceModes (fun i => (kx i : ℂ)) (fun i => (ky i : ℂ)) (er : ℂ) = .ok r := by
  have e : ∀ i, (er : ℂ) - (kx i : ℂ) ^ 2 - (ky i : ℂ) ^ 2 = ((er - kx i ^ 2 - ky i ^ 2 : ℝ) : ℂ) := by
    intro i; push_cast; rfl
  simp only [halfSpaceModes, e, star_csqrt_ofReal, bind_eq_ok, npDivCols_eq_ok]
  refine ⟨_, _, ⟨?_, rfl⟩, rfl⟩
  rintro (j | j) <;> simp [stack2, outerKz_eq_zero, hg j]

/-- Both interfaces with a medium of positive permittivity have scattering matrices. -/
theorem interface_exists {er : ℝ} (her : 0 < er) {W0 V0 W V : Matrix (ι ⊕ ι) (ι ⊕ ι) ℂ} {lam : ι ⊕ ι → ℂ}
    (h0 : freeSpaceEigenmodes (fun i => (kx i : ℂ)) (fun i => (ky i : ℂ)) = .ok (W0, V0))
    (hm : halfSpaceModes (fun i => (kx i : ℂ)) (fun i => (ky i : ℂ)) (er : ℂ) = .ok (W, V, lam)) :
    ∃ S, reflectionScatmat W0 V0 W V = .ok S := by
  obtain ⟨l0, hh⟩ := gap_halfSpace h0
  obtain ⟨dW0, dV0⟩ := halfSpaceModes_det (by simp) hh
  obtain ⟨hg0, -, -, ho0⟩ := halfSpaceModes_outer hh
  obtain ⟨hg, -, -, ho⟩ := halfSpaceModes_outer hm
  set A := W0⁻¹ * W + V0⁻¹ * V with hA
  set B := W0⁻¹ * W - V0⁻¹ * V with hB
  refine ⟨⟨-(A⁻¹ * B), (2 : ℂ) • A⁻¹, (0.5 : ℂ) • (A - B * (A⁻¹ * B)), B * A⁻¹⟩,
    reflectionScatmat_eq_ok.2 ⟨A, B, rfl, rfl, dW0, dV0, ?_, rfl, rfl, rfl, rfl⟩⟩
  intro hdet
  obtain ⟨x, hx, hAx⟩ := Matrix.exists_mulVec_eq_zero_iff.2 hdet
  have hf : fieldOf W V ⟨0, x⟩ = fieldOf W0 V0 ⟨(1 / 2 : ℂ) • (B *ᵥ x), 0⟩ := by
    rw [fieldOf_eq_iff dW0 dV0, ← hA, ← hB]
    exact ⟨by simp, by simp [hAx]⟩
  rw [ho, ho0] at hf
  exact hx (no_surface_wave her one_pos hg hg0 hf).1

/-- Power carried by gap amplitudes. -/
noncomputable def gapFlux (kx ky : ι → ℝ) (p : Port (ι ⊕ ι)) : ℝ := fluxZ (outerField kx ky 1 p)

theorem reflection_passive {er : ℝ} {W0 V0 W V : Matrix (ι ⊕ ι) (ι ⊕ ι) ℂ} {lam : ι ⊕ ι → ℂ}
    (h0 : freeSpaceEigenmodes (fun i => (kx i : ℂ)) (fun i => (ky i : ℂ)) = .ok (W0, V0))
    (hm : halfSpaceModes (fun i => (kx i : ℂ)) (fun i => (ky i : ℂ)) (er : ℂ) = .ok (W, V, lam))
    {S : SMat (ι ⊕ ι)} (h : reflectionScatmat W0 V0 W V = .ok S) : LeftPassive (gapFlux kx ky) S := by
  intro p q hpq hp
  obtain ⟨hg, -, -, ho⟩ := halfSpaceModes_outer hm
  rw [scatters_reflection h, gap_outer h0, ho] at hpq
  rw [gapFlux, ← hpq]
  exact fluxZ_outer_bwd hg hp

theorem transmission_passive {er : ℝ} {W0 V0 W V : Matrix (ι ⊕ ι) (ι ⊕ ι) ℂ} {lam : ι ⊕ ι → ℂ}
    (h0 : freeSpaceEigenmodes (fun i => (kx i : ℂ)) (fun i => (ky i : ℂ)) = .ok (W0, V0))
    (hm : halfSpaceModes (fun i => (kx i : ℂ)) (fun i => (ky i : ℂ)) (er : ℂ) = .ok (W, V, lam))
    {S : SMat (ι ⊕ ι)} (h : transmissionScatmat W0 V0 W V = .ok S) : RightPassive (gapFlux kx ky) S := by
  intro p q hpq hq
  obtain ⟨hg, -, -, ho⟩ := halfSpaceModes_outer hm
  rw [scatters_transmission h, gap_outer h0, ho] at hpq
  rw [gapFlux, hpq]
  exact fluxZ_outer_fwd hg hq

/-- Nothing circulates between two media of positive permittivity. -/
theorem junction_passive {er et : ℝ} (her : 0 < er) (het : 0 < et)
    {W0 V0 Wr Vr Wt Vt : Matrix (ι ⊕ ι) (ι ⊕ ι) ℂ} {lr lt : ι ⊕ ι → ℂ}
    (h0 : freeSpaceEigenmodes (fun i => (kx i : ℂ)) (fun i => (ky i : ℂ)) = .ok (W0, V0))
    (hr : halfSpaceModes (fun i => (kx i : ℂ)) (fun i => (ky i : ℂ)) (er : ℂ) = .ok (Wr, Vr, lr))
    (ht : halfSpaceModes (fun i => (kx i : ℂ)) (fun i => (ky i : ℂ)) (et : ℂ) = .ok (Wt, Vt, lt))
    {Sr St : SMat (ι ⊕ ι)} (hSr : reflectionScatmat W0 V0 Wr Vr = .ok Sr)
    (hSt : transmissionScatmat W0 V0 Wt Vt = .ok St) (x : Port (ι ⊕ ι)) (hx : Circulates Sr St x) :
    x = ⟨0, 0⟩ := by
  obtain ⟨l0, hh⟩ := gap_halfSpace h0
  obtain ⟨dW0, dV0⟩ := halfSpaceModes_det (by simp) hh
  obtain ⟨hgr, -, -, hor⟩ := halfSpaceModes_outer hr
  obtain ⟨hgt, -, -, hot⟩ := halfSpaceModes_outer ht
  have h1 := (scatters_reflection hSr _ _).1 (circulates_left hx)
  have h2 := (scatters_transmission hSt _ _).1 (circulates_right hx)
  have h3 := h1.trans h2
  rw [hor, hot] at h3
  obtain ⟨z, -⟩ := no_surface_wave her het hgr hgt h3
  rw [z] at h1
  refine fieldOf_injective dW0 dV0 (h1.symm.trans ?_)
  simp [fieldOf]

/-- A strictly absorbing layer takes power from every field. -/
theorem layer_takesPower {C : Matrix ι ι ℂ} (hs : StrictlyAbsorbingMat C)
    {W V W0 V0 : Matrix (ι ⊕ ι) (ι ⊕ ι) ℂ} {lam : ι ⊕ ι → ℂ}
    (h0 : freeSpaceEigenmodes (fun i => (kx i : ℂ)) (fun i => (ky i : ℂ)) = .ok (W0, V0))
    (hm : IsModes (maxwellP (fun i => (kx i : ℂ)) (fun i => (ky i : ℂ)) C)
      (maxwellQ (fun i => (kx i : ℂ)) (fun i => (ky i : ℂ)) C) W V lam)
    {d k0 : ℝ} (hd : 0 < d * k0) {S : SMat (ι ⊕ ι)} (h : buildScatmat W V W0 V0 lam d k0 = .ok S) :
    TakesPower (gapFlux kx ky) S := by
  obtain ⟨l0, hh⟩ := gap_halfSpace h0
  obtain ⟨dW0, dV0⟩ := halfSpaceModes_det (by simp) hh
  obtain ⟨-, -, -, -, -, -, -, -, dW, dV, -⟩ := buildScatmat_eq_ok.1 h
  have zero : ∀ p : Port (ι ⊕ ι), (fieldOf W0 V0 p).E = 0 ∧ (fieldOf W0 V0 p).H = 0 → p = ⟨0, 0⟩ := by
    intro p hp
    refine fieldOf_injective dW0 dV0 (Tang.ext (hp.1.trans ?_) (hp.2.trans ?_)) <;> simp [fieldOf]
  intro p q hpq hle
  have hpq' := hpq
  rw [scatters_buildScatmat h, LayerBVP, modal_iff_maxwell dW dV hm.1 hm.2, maxwellTransfer_iff_flow] at hpq
  rw [gapFlux, gapFlux, ← gap_outer h0, ← gap_outer h0, hpq] at hle
  have hp := zero p (power_flow_strict hs hd hle)
  subst hp
  refine ⟨rfl, fieldOf_injective dW0 dV0 ?_⟩
  have e : fieldOf W0 V0 (⟨0, 0⟩ : Port (ι ⊕ ι)) = ⟨0, 0⟩ := by simp [fieldOf]
  rw [hpq, e]
  apply Tang.ext <;> funext i <;> simp [flow, Sum.elim_zero_zero]

end

/-! ### Permittivity matrices -/

theorem strict_pixmap {pix : Arr2} {pw : ℕ × ℕ} {C : Matrix (Fin (pw.1 * pw.2)) (Fin (pw.1 * pw.2)) ℂ}
    (h1 : 0 < pw.1) (h2 : 0 < pw.2) (h : convolutionMatrix (pw.1 * pw.2) pix pw = .ok C)
    (hneg : ∀ x y, (pix.val x y).im < 0) : StrictlyAbsorbingMat C := by
  obtain ⟨hx, hy, rfl⟩ := convolutionMatrix_eq h1 h2 h
  have : Nonempty (Fin pix.nx × Fin pix.ny) := ⟨⟨0, by omega⟩, ⟨0, by omega⟩⟩
  obtain ⟨⟨x0, y0⟩, hmin⟩ := Finite.exists_min fun q : Fin pix.nx × Fin pix.ny => -(pix.val q.1 q.2).im
  let a' : Arr2 := ⟨pix.nx, pix.ny, fun x y => ((-(pix.val x y).im : ℝ) : ℂ)⟩
  have hok := convolutionMatrix_ok (a := a') (pw := pw) (by simp only [a']; omega) (by simp only [a']; omega)
    (by simp only [a']; omega) (by simp only [a']; omega)
  intro u hu
  obtain ⟨-, hb⟩ := C24_lower_bound h1 h2 hok (e0 := -(pix.val x0 y0).im) (fun x y => by simp [a'])
    (fun x y => by simpa [a'] using hmin (x, y)) u
  rw [quadratic_convolution] at hb ⊢
  have hn : ((pix.nx : ℂ) * pix.ny) = (((pix.nx * pix.ny : ℕ) : ℝ) : ℂ) := by push_cast; ring
  have hn' : ((a'.nx : ℂ) * a'.ny) = (((pix.nx * pix.ny : ℕ) : ℝ) : ℂ) := hn
  rw [hn', Complex.div_ofReal_re] at hb
  rw [hn, Complex.div_ofReal_im]
  have hpos : 0 < ∑ i, ‖u i‖ ^ 2 := by
    obtain ⟨j, hj⟩ := Function.ne_iff.1 hu
    refine Finset.sum_pos' (fun i _ => sq_nonneg _) ⟨j, Finset.mem_univ _, ?_⟩
    have : 0 < ‖u j‖ := norm_pos_iff.2 hj
    positivity
  have h0 : 0 < -(pix.val x0 y0).im * ∑ i, ‖u i‖ ^ 2 := mul_pos (by linarith [hneg x0 y0]) hpos
  have hlt := h0.trans_le hb
  have e : ∀ f : Fin pix.nx → Fin pix.ny → ℝ,
      (∑ x, ∑ y, pix.val x y * ((f x y : ℝ) : ℂ)).im = -(∑ x, ∑ y, a'.val x y * ((f x y : ℝ) : ℂ)).re := by
    intro f
    simp only [a', Complex.im_sum, Complex.re_sum, Complex.im_mul_ofReal, Complex.re_mul_ofReal,
      Complex.ofReal_re, ← Finset.sum_neg_distrib]
    exact Finset.sum_congr rfl fun _ _ => Finset.sum_congr rfl fun _ _ => by ring
  rw [e, neg_div]
  exact neg_neg_of_pos hlt

theorem strict_uniform {eps : ℂ} (h : eps.im < 0) : StrictlyAbsorbingMat (eps • (1 : Matrix (Fin N) (Fin N) ℂ)) := by
  intro u hu
  rw [quad_smul_one]
  obtain ⟨j, hj⟩ := Function.ne_iff.1 hu
  refine mul_neg_of_neg_of_pos h (Finset.sum_pos' (fun i _ => sq_nonneg _) ⟨j, Finset.mem_univ _, ?_⟩)
  have : 0 < ‖u j‖ := norm_pos_iff.2 hj
  positivity

theorem strict_perm {jv1 : ℝ → ℝ} {e : Expansion N} {f : Form} (hN : 0 < N) (h : f.strictlyAbsorbing jv1 e)
    {C : Matrix (Fin N) (Fin N) ℂ} (hC : Permittivity jv1 e f C) : StrictlyAbsorbingMat C := by
  cases f with
  | uniform eps => rw [show C = eps • 1 from hC]; exact strict_uniform h
  | fft pix =>
    obtain ⟨hx, hy, hneg⟩ := h
    obtain ⟨tag, pw, rfl, rec, g, sigma⟩ := e
    simp only at hx hy hC
    have h1 : 0 < pw.1 := Nat.pos_of_mul_pos_right hN
    have h2 : 0 < pw.2 := Nat.pos_of_mul_pos_left hN
    have hok := convolutionMatrix_ok (a := pix) (pw := pw) hx hy (by omega) (by omega)
    have : C = Matrix.of fun r c : Fin (pw.1 * pw.2) =>
        fourierCoef pix (diffAt pw.1 r c).1 (diffAt pw.1 r c).2 := by
      ext r c
      rw [hC r c, Matrix.of_apply]
      simp [diffAt]
    rw [this]
    exact strict_pixmap h1 h2 hok hneg
  | analytical islands host =>
    obtain ⟨C', h1, h2⟩ := h
    have hC' : analyticalC jv1 e islands host = .ok C := hC
    rw [h1, Except.ok.injEq] at hC'
    rw [← hC']; exact h2
  | halfInc _ => exact h.elim
  | halfTrn _ => exact h.elim

/-! ### Solving -/

theorem strict_structured {lib : NumLib} (he : EigContract (lib.eig N)) {kx ky : Fin N → ℝ}
    {C : Matrix (Fin N) (Fin N) ℂ} (hs : StrictlyAbsorbingMat C) {W0 V0 : Mat2 N}
    (h0 : freeSpaceEigenmodes (fun i => (kx i : ℂ)) (fun i => (ky i : ℂ)) = .ok (W0, V0))
    (hdiag : ∃ r, lib.eig N (maxwellP (fun i => (kx i : ℂ)) (fun i => (ky i : ℂ)) C *
        maxwellQ (fun i => (kx i : ℂ)) (fun i => (ky i : ℂ)) C) = .ok r ∧ r.2.det ≠ 0)
    {d k0 : ℝ} (hd : 0 < d * k0) :
    ∃ r, solveWithC lib (fun i => (kx i : ℂ)) (fun i => (ky i : ℂ)) W0 V0 C d k0 = .ok r := by
  obtain ⟨⟨lam2, W⟩, hE, hW⟩ := hdiag
  simp only at hW
  have heig := he _ _ _ hE
  have hl2 := strict_eigenvalue hs hW heig
  set lam : Fin N ⊕ Fin N → ℂ := fun i => csqrt (lam2 i) with hlam
  have hlam0 : ∀ j, lam j ≠ 0 := fun j h => hl2 j (csqrt_eq_zero.1 h)
  set V : Mat2 N := Matrix.of fun i j =>
    (maxwellQ (fun i => (kx i : ℂ)) (fun i => (ky i : ℂ)) C * W) i j / lam j with hV
  have hm : IsModes (maxwellP (fun i => (kx i : ℂ)) (fun i => (ky i : ℂ)) C)
      (maxwellQ (fun i => (kx i : ℂ)) (fun i => (ky i : ℂ)) C) W V lam :=
    IsModes.of_eigen hlam0 (fun j => csqrt_sq _) heig hV
  have hVd : V.det ≠ 0 := by
    intro hz
    have := congrArg Matrix.det hm.1
    rw [det_mul, hz, mul_zero, det_mul, det_diagonal] at this
    exact mul_ne_zero hW (Finset.prod_ne_zero_iff.2 fun j _ => hlam0 j) this.symm
  have hpos : ∀ j, 0 < (lam j).re := fun j =>
    lt_of_le_of_ne (csqrt_re_nonneg _) (Ne.symm (strict_damped hs hW hm j))
  obtain ⟨S, hS⟩ := strict_buildScatmat hs h0 hW hVd hm hpos hd
  have hst : solveStructuredLayer (lib.eig N) (fun i => (kx i : ℂ)) (fun i => (ky i : ℂ)) C = .ok (W, V, lam) :=
    solveStructuredLayer_eq_ok.2 ⟨_, lam2, structuredP_eq_ok.2 ⟨hs.det, rfl⟩, hE, rfl, hl2, rfl⟩
  simp only [solveWithC, bind_eq_ok, npInv_eq_ok]
  exact ⟨_, _, ⟨hs.det, rfl⟩, _, hst, S, hS, rfl⟩

/-- A strictly absorbing layer of positive depth can be solved. -/
theorem strict_solve {lib : NumLib} (he : EigContract (lib.eig N)) (hN : 0 < N) {e : Expansion N} {kp : ℝ × ℝ}
    {wl : ℝ} (hwl : 0 < wl) (hg : ∀ i, 1 - orderKx e kp wl i ^ 2 - orderKy e kp wl i ^ 2 ≠ 0) {form : Form}
    (hf : form.strictlyAbsorbing lib.jv1 e)
    (hdiag : form.diagonalised lib e (orderKx e kp wl) (orderKy e kp wl)) {d : ℝ} (hd : 0 < d) :
    ∃ r, form.solve lib e d ((kp.1 : ℂ), (kp.2 : ℂ)) wl = .ok r := by
  obtain ⟨kz, hk⟩ := real_kVectors e hwl.ne' kp
  obtain ⟨V0, h0⟩ := gap_exists hg
  have hd' : 0 < d * (2 * Real.pi / wl) := by have := Real.pi_pos; positivity
  simp only [Form.solve, hk, ok_bind, h0]
  cases form with
  | uniform eps =>
    have hf' : eps.im < 0 := hf
    have heps : eps ≠ 0 := by rintro rfl; simp at hf'
    have him : ∀ i, (eps - (orderKx e kp wl i : ℂ) ^ 2 - (orderKy e kp wl i : ℂ) ^ 2).im < 0 := by
      intro i
      have : (eps - (orderKx e kp wl i : ℂ) ^ 2 - (orderKy e kp wl i : ℂ) ^ 2).im = eps.im := by
        rw [← Complex.ofReal_pow, ← Complex.ofReal_pow, Complex.sub_im, Complex.sub_im, Complex.ofReal_im,
          Complex.ofReal_im, sub_zero, sub_zero]
      rw [this]; exact hf'
    have hne : ∀ i, eps - (orderKx e kp wl i : ℂ) ^ 2 - (orderKy e kp wl i : ℂ) ^ 2 ≠ 0 := by
      intro i hz; have := him i; rw [hz] at this; simp at this
    have hm0 : solveUniformLayer (fun i => (orderKx e kp wl i : ℂ)) (fun i => (orderKy e kp wl i : ℂ)) eps =
        .ok (1, (Matrix.of fun i j => qBlock (fun i => (orderKx e kp wl i : ℂ)) (fun i => (orderKy e kp wl i : ℂ)) eps i j /
          stack2 (fun i => Complex.I * kzMasked (eps - (orderKx e kp wl i : ℂ) ^ 2 - (orderKy e kp wl i : ℂ) ^ 2)) j),
          stack2 (fun i => Complex.I * kzMasked (eps - (orderKx e kp wl i : ℂ) ^ 2 - (orderKy e kp wl i : ℂ) ^ 2))) :=
      solveUniformLayer_eq_ok.2 ⟨heps, hne, rfl, rfl, rfl⟩
    have hkz : ∀ i, kzMasked (eps - (orderKx e kp wl i : ℂ) ^ 2 - (orderKy e kp wl i : ℂ) ^ 2) ≠ 0 :=
      fun i h => hne i (kzMasked_eq_zero.1 h)
    have m := uniform_isModes (kx := fun i => (orderKx e kp wl i : ℂ)) (ky := fun i => (orderKy e kp wl i : ℂ)) heps hkz
      fun i => kzMasked_sq _
    obtain ⟨-, hP⟩ := structuredP_eq_ok.1
      (structuredP_uniform (fun i => (orderKx e kp wl i : ℂ)) (fun i => (orderKy e kp wl i : ℂ)) heps)
    rw [hP] at m
    have hQ : qBlock (fun i => (orderKx e kp wl i : ℂ)) (fun i => (orderKy e kp wl i : ℂ)) eps =
        maxwellQ (fun i => (orderKx e kp wl i : ℂ)) (fun i => (orderKy e kp wl i : ℂ)) (eps • 1) := by
      rw [qBlock_eq_structuredQ, structuredQ_eq]
    have hlam : ∀ j : Fin N ⊕ Fin N, 0 < (stack2 (fun i => Complex.I *
        kzMasked (eps - (orderKx e kp wl i : ℂ) ^ 2 - (orderKy e kp wl i : ℂ) ^ 2)) j).re := by
      rintro (j | j) <;> simpa [stack2] using kzMasked_im_neg (Or.inl (him j))
    have hVd : (Matrix.of fun i j => qBlock (fun i => (orderKx e kp wl i : ℂ)) (fun i => (orderKy e kp wl i : ℂ)) eps i j /
          stack2 (fun i => Complex.I * kzMasked (eps - (orderKx e kp wl i : ℂ) ^ 2 - (orderKy e kp wl i : ℂ) ^ 2)) j).det ≠ 0 := by
      intro hz
      have := congrArg Matrix.det m.1
      rw [det_mul, hz, mul_zero, det_mul, det_one, one_mul, det_diagonal] at this
      refine Finset.prod_ne_zero_iff.2 (fun j _ h => ?_) this.symm
      have := hlam j
      rw [h] at this; simp at this
    rw [hQ] at m hVd
    obtain ⟨S, hS⟩ := strict_buildScatmat (C := eps • 1) (strict_uniform hf') h0 (by simp) hVd m hlam hd'
    rw [← hQ] at hS
    simp only [hm0, ok_bind, hS, inverseEps, heps, if_false]
    exact ⟨_, rfl⟩
  | fft pix =>
    have hf' := hf
    obtain ⟨hx, hy, hneg⟩ := hf'
    obtain ⟨C, hC⟩ : ∃ C, convolutionMatrix N pix e.pw = .ok C := by
      obtain ⟨tag, pw, rfl, rec, g, sigma⟩ := e
      simp only at hx hy
      have h1 : 0 < pw.1 := Nat.pos_of_mul_pos_right hN
      have h2 : 0 < pw.2 := Nat.pos_of_mul_pos_left hN
      exact ⟨_, convolutionMatrix_ok hx hy (by omega) (by omega)⟩
    have hp := permittivity_convolution (jv1 := lib.jv1) hC
    simp only [hC, ok_bind]
    exact strict_structured he (strict_perm hN hf hp) h0 (hdiag C hp) hd'
  | analytical islands host =>
    obtain ⟨C, hC, hs⟩ := hf
    simp only [hC, ok_bind]
    exact strict_structured he hs h0 (hdiag C hC) hd'
  | halfInc _ => exact hf.elim
  | halfTrn _ => exact hf.elim

theorem half_solves (lib : NumLib) {e : Expansion N} {kp : ℝ × ℝ} {wl : ℝ} (hwl : 0 < wl)
    (hg : ∀ i, 1 - orderKx e kp wl i ^ 2 - orderKy e kp wl i ^ 2 ≠ 0) {er : ℝ} (her : 0 < er)
    (hr : ∀ i, er - orderKx e kp wl i ^ 2 - orderKy e kp wl i ^ 2 ≠ 0) :
    (∃ r, (Form.halfInc er).solve lib e 0 ((kp.1 : ℂ), (kp.2 : ℂ)) wl = .ok r) ∧
    ∃ r, (Form.halfTrn er).solve lib e 0 ((kp.1 : ℂ), (kp.2 : ℂ)) wl = .ok r := by
  obtain ⟨kz, hk⟩ := real_kVectors e hwl.ne' kp
  obtain ⟨V0, h0⟩ := gap_exists hg
  obtain ⟨⟨W, V, L⟩, hm⟩ := halfSpaceModes_exists hr
  obtain ⟨S, hS⟩ := interface_exists her h0 hm
  have hS' : transmissionScatmat 1 V0 W V = .ok S.flip := by rw [transmission_eq_flip, hS]; rfl
  have hne : (er : ℂ) ≠ 0 := by exact_mod_cast her.ne'
  constructor
  · simp only [Form.solve, hk, ok_bind, h0, scatteringReflection, hm, hS, inverseEps, hne, if_false, pure,
      Except.pure]
    exact ⟨_, rfl⟩
  · simp only [Form.solve, hk, ok_bind, h0, scatteringTransmission, hm, hS', inverseEps, hne, if_false, pure,
      Except.pure]
    exact ⟨_, rfl⟩

/-- What a solved strictly absorbing layer does to power. -/
theorem solved_takesPower {lib : NumLib} (he : EigContract (lib.eig N)) (hN : 0 < N) {e : Expansion N} {kp : ℝ × ℝ}
    {wl : ℝ} (hwl : 0 < wl) {form : Form} (hl : form.isLayer) (hf : form.strictlyAbsorbing lib.jv1 e) {d : ℝ} (hd : 0 < d)
    {r : Solved N} (h : form.solve lib e d ((kp.1 : ℂ), (kp.2 : ℂ)) wl = .ok r) :
    TakesPower (gapFlux (orderKx e kp wl) (orderKy e kp wl)) r.S := by
  obtain ⟨kx, ky, kz, W0, V0, hk, h0, hS⟩ := Form.solve_layer hl h
  obtain ⟨kz', hk'⟩ := real_kVectors e hwl.ne' kp
  rw [hk', Except.ok.injEq, Prod.mk.injEq, Prod.mk.injEq] at hk
  obtain ⟨rfl, rfl, -⟩ := hk
  obtain ⟨C, hC, -, hm, -⟩ := hS.perm
  exact layer_takesPower (strict_perm hN hf hC) h0 (hm he)
    (by have := Real.pi_pos; positivity) hS.scat

theorem fluxZ_chain_strict {jv1 : ℝ → ℝ} {e : Expansion N} {kx ky : Fin N → ℝ} {k0 : ℝ} {Ls : List (Layer N)}
    {Ms : List (Mat2 N × Mat2 N × ℝ)} (h : LayerEquations jv1 e kx ky k0 Ls Ms)
    (ha : ∀ l ∈ Ls, 0 ≤ l.depth * k0 ∧ ∀ C, Permittivity jv1 e l.form C → AbsorbingMat C)
    (hs : ∃ l ∈ Ls, 0 < l.depth * k0 ∧ ∀ C, Permittivity jv1 e l.form C → StrictlyAbsorbingMat C)
    {F G : Tang (Fin N ⊕ Fin N)} (hc : MaxwellChain Ms F G) (hle : fluxZ F ≤ fluxZ G) : F.E = 0 ∧ F.H = 0 := by
  unfold LayerEquations at h
  induction h generalizing F with
  | nil => simp at hs
  | @cons l M _ _ h1 hT ih =>
    obtain ⟨C, hC, hd, rfl⟩ := h1
    obtain ⟨K, hK, hc⟩ := hc
    have hK' := maxwellTransfer_iff_flow.1 hK
    simp only at hK'
    have hG := fluxZ_chain_le hT (fun l hl => ha l (by simp [hl])) hc
    obtain ⟨l', hl', h0, hst⟩ := hs
    rcases List.mem_cons.1 hl' with rfl | hl'
    · refine power_flow_strict (kx := kx) (ky := ky) (hst C hC) h0 ?_
      rw [← hK']; linarith
    · have hFK : fluxZ K ≤ fluxZ F := by
        obtain ⟨h0', habs⟩ := ha l (by simp)
        have := power_flow_antitone (kx := kx) (ky := ky) hd (habs C hC) F h0'
        rw [hK']
        simpa [flow_zero] using this
      obtain ⟨z1, z2⟩ := ih (fun l hl => ha l (by simp [hl])) ⟨l', hl', h0, hst⟩ hc (by linarith)
      rw [hK'] at z1 z2
      exact flow_eq_zero z1 z2

theorem media_flux_exists (e : Expansion N) {wl : ℝ} (hwl : 0 < wl) (kp : ℝ × ℝ) {er et : ℝ}
    (hg : ∀ i, et - orderKx e kp wl i ^ 2 - orderKy e kp wl i ^ 2 ≠ 0)
    (hp : 0 < er - (kp.1 / (2 * Real.pi / wl)) ^ 2 - (kp.2 / (2 * Real.pi / wl)) ^ 2) (v : Vec2 N) :
    ∃ r, poyntingFluxes e v ((kp.1 : ℂ), (kp.2 : ℂ)) wl er et = .ok r := by
  have hk0 : 0 < 2 * Real.pi / wl := by have := Real.pi_pos; positivity
  have hkc : ((2 * Real.pi / wl : ℝ) : ℂ) ≠ 0 := by exact_mod_cast hk0.ne'
  have key : ∀ (F : ℝ × (Fin N → ℝ) → Prop) (g : Fin N → ℝ), (∀ r, r.2 = g → r.1 = ∑ i, r.2 i → F r) →
      ∃ r, F r := fun F g h => ⟨(∑ i, g i, g), h _ rfl rfl⟩
  have hz : ∀ a x y : ℝ, star (csqrt (((2 * Real.pi / wl : ℝ) : ℂ) ^ 2 * a - (x : ℂ) ^ 2 - (y : ℂ) ^ 2)) =
      ((2 * Real.pi / wl : ℝ) : ℂ) * outerKz (a - (x / (2 * Real.pi / wl)) ^ 2 - (y / (2 * Real.pi / wl)) ^ 2) := by
    intro a x y
    rw [← outerKz_mul_sq hk0, ← star_csqrt_ofReal]
    congr 2
    generalize 2 * Real.pi / wl = k0 at *
    push_cast
    field_simp
  refine key _ _ fun r e2 e1 => poyntingFluxes_eq_ok.2 ⟨hwl.ne', _, _, _, kVectors_eq_ok.2 ⟨hwl.ne', rfl, rfl, rfl⟩,
    fun i => ?_, ?_, e2, e1⟩
  · have := hz et (kp.1 + (e.g i).1) (kp.2 + (e.g i).2)
    push_cast at this
    simp only [kzFromKplanar, Complex.star_def, Complex.conj_ofReal] at this ⊢
    push_cast
    rw [this]
    have hkc' : (2 : ℂ) * Real.pi / wl ≠ 0 := by simpa using hkc
    refine div_ne_zero (mul_ne_zero hkc' ?_) hkc'
    exact outerKz_eq_zero.not.2 (by have := hg i; simpa only [orderKx, orderKy] using this)
  · rw [hz, mul_div_cancel_left₀ _ hkc, outerKz_pos hp, Complex.ofReal_re]
    exact (Real.sqrt_pos.2 hp).ne'

end Khepri
