import Verif.Lemmas.SymmetryForms
import Verif.Props.Islands
import Verif.Lemmas.ExampleRun

/-!
# Properties C72, C73, C74: devices that only differ by their size, orientation or origin
-/

namespace Khepri

open Matrix

section
variable {N : ℕ} {lib : NumLib} {c c3 c' c3' : Crystal N} {stack stack' : List String}
  {m m' : Bool ⊕ List Bool} {Ls Ls' : List (Layer N)} {er et wl : ℝ} {te tm te' tm' : ℂ}
  {theta phi theta' phi' : ℝ} {kpo kpo' : Option (ℂ × ℂ)} {kp kp' : R2}
  {st st' : Stacked (Fin N ⊕ Fin N)} {f f' : Crystal.Fluxes N}

/-! ### C73 -/

/-- **C73.** With the reciprocal vectors rotated by `a` and the in-plane wave vector rotated by the same angle, the
scattering of the device is that of the original device turned by `a`. -/
theorem C73_scattering (he : EigContract (lib.eig N)) {a : ℝ} (hx : c'.expansion = c.expansion.rotate a)
    (h : DeviceRun lib c stack m Ls er et wl te tm theta phi kpo kp c3)
    (h' : DeviceRun lib c' stack' m' Ls' er et wl te' tm' theta' phi' kpo' kp' c3')
    (hkp : kp' = rotate2 a kp)
    (hL : List.Forall₂ (fun l l' => l'.form = l.form ∧ l'.depth = l.depth) Ls Ls')
    (hst : c3.stacked = some st) (hst' : c3'.stacked = some st') (v : Vec2 N) :
    st'.Stot.s11 *ᵥ turned a v = turned a (st.Stot.s11 *ᵥ v) ∧
    st'.Stot.s12 *ᵥ turned a v = turned a (st.Stot.s12 *ᵥ v) ∧
    st'.Stot.s21 *ᵥ turned a v = turned a (st.Stot.s21 *ᵥ v) ∧
    st'.Stot.s22 *ᵥ turned a v = turned a (st.Stot.s22 *ᵥ v) := by
  have k1 : ∀ i, orderKx c'.expansion kp' wl i =
      Real.cos a * orderKx c.expansion kp wl i - Real.sin a * orderKy c.expansion kp wl i := by
    intro i
    simp only [orderKx, orderKy, hx, hkp, Expansion.rotate, rotate2]
    ring
  have k2 : ∀ i, orderKy c'.expansion kp' wl i =
      Real.sin a * orderKx c.expansion kp wl i + Real.cos a * orderKy c.expansion kp wl i := by
    intro i
    simp only [orderKx, orderKy, hx, hkp, Expansion.rotate, rotate2]
    ring
  obtain ⟨e1, e2, e3, e4⟩ := runs_carry he h h' (turnMat_unit a) (turnMat_unit a)
    (hL.imp fun l l' hl => ⟨by rw [hl.2], fun C C' _ _ hC hC' => by
      rw [hx, hl.1] at hC'
      have : C' = C := permittivity_unique (e := c.expansion) (f := l.form) (by cases hf : l.form <;> rw [hf] at hC' <;> exact hC') hC
      subst this
      rw [maxwellP_eq, maxwellP_eq, maxwellQ_eq, maxwellQ_eq]
      exact ⟨turn_block a k1 k2, turn_block a k1 k2⟩⟩)
    (fun e => by rw [maxwellQ_eq, maxwellQ_eq]; exact turn_block a k1 k2)
    (by
      intro i j hij
      have : (i.elim id id : Fin N) = j.elim id id := by
        rcases i with i | i <;> rcases j with j | j <;>
          simp only [turnMat, fromBlocks_apply₁₁, fromBlocks_apply₁₂, fromBlocks_apply₂₁, fromBlocks_apply₂₂,
            Matrix.smul_apply] at hij <;>
          · by_contra hne
            exact hij (by rw [Matrix.one_apply_ne (by simpa using hne), smul_zero])
      rw [this, k1, k2]
      have := Real.cos_sq_add_sin_sq a
      linear_combination (orderKx c.expansion kp wl (j.elim id id) ^ 2 + orderKy c.expansion kp wl (j.elim id id) ^ 2) * this)
    hst hst'
  simp only [← turnMat_mulVec, mulVec_mulVec, e1, e2, e3, e4, and_self]

/-- The fluxes when the incident amplitudes are turned. -/
theorem turned_fluxes (he : EigContract (lib.eig N)) {a : ℝ} (hx : c'.expansion = c.expansion.rotate a)
    (h : DeviceRun lib c stack m Ls er et wl te tm theta phi kpo kp c3)
    (h' : DeviceRun lib c' stack' m' Ls' er et wl te' tm' theta' phi' kpo' kp' c3')
    (hkp : kp' = rotate2 a kp)
    (hL : List.Forall₂ (fun l l' => l'.form = l.form ∧ l'.depth = l.depth) Ls Ls') (hwl : 0 < wl)
    (hf : c3.poyntingFluxEnd = .ok f) (hf' : c3'.poyntingFluxEnd = .ok f')
    (hinc : ∀ inc inc' : Vec2 N, 0 < er - (kp.1 / (2 * Real.pi / wl)) ^ 2 - (kp.2 / (2 * Real.pi / wl)) ^ 2 →
      incident N te tm ⟨kp.1, kp.2, star (csqrt (((2 * Real.pi / wl : ℝ) : ℂ) ^ 2 * er - (kp.1 : ℂ) ^ 2 - (kp.2 : ℂ) ^ 2))⟩ = .ok inc →
      incident N te' tm' ⟨kp'.1, kp'.2, star (csqrt (((2 * Real.pi / wl : ℝ) : ℂ) ^ 2 * er - (kp'.1 : ℂ) ^ 2 - (kp'.2 : ℂ) ^ 2))⟩ = .ok inc' →
      inc' = turned a inc) : f' = f := by
  have k1 : ∀ i, orderKx c'.expansion kp' wl i =
      Real.cos a * orderKx c.expansion kp wl i - Real.sin a * orderKy c.expansion kp wl i := by
    intro i
    simp only [orderKx, orderKy, hx, hkp, Expansion.rotate, rotate2]
    ring
  have k2 : ∀ i, orderKy c'.expansion kp' wl i =
      Real.sin a * orderKx c.expansion kp wl i + Real.cos a * orderKy c.expansion kp wl i := by
    intro i
    simp only [orderKx, orderKy, hx, hkp, Expansion.rotate, rotate2]
    ring
  have hcs := Real.cos_sq_add_sin_sq a
  have kk : ∀ (e : ℝ) i, e - orderKx c'.expansion kp' wl i ^ 2 - orderKy c'.expansion kp' wl i ^ 2 =
      e - orderKx c.expansion kp wl i ^ 2 - orderKy c.expansion kp wl i ^ 2 := by
    intro e i
    rw [k1, k2]
    linear_combination -(orderKx c.expansion kp wl i ^ 2 + orderKy c.expansion kp wl i ^ 2) * hcs
  have k0 : er - (kp'.1 / (2 * Real.pi / wl)) ^ 2 - (kp'.2 / (2 * Real.pi / wl)) ^ 2 =
      er - (kp.1 / (2 * Real.pi / wl)) ^ 2 - (kp.2 / (2 * Real.pi / wl)) ^ 2 := by
    rw [hkp]
    simp only [rotate2]
    generalize 2 * Real.pi / wl = k0
    linear_combination (-(kp.1 / k0) ^ 2 - (kp.2 / k0) ^ 2) * hcs
  obtain ⟨st, inc, hst, hi, hpos, hR, hT, r, t⟩ := h.fluxes hwl hf
  obtain ⟨st', inc', hst', hi', -, hR', hT', r', t'⟩ := h'.fluxes hwl hf'
  have hii := hinc inc inc' hpos hi hi'
  obtain ⟨e1, -, e3, -⟩ := C73_scattering he hx h h' hkp hL hst hst' inc
  refine Fluxes.ext' (fun i => ?_) (fun i => ?_) r r' t t'
  · rw [hR, hR', hii, e1, k0]
    simp only [kk]
    rw [waveNorm_turn a k1 k2]
  · rw [hT, hT', hii, e3, k0]
    simp only [kk]
    rw [waveNorm_turn a k1 k2]

/-- **C73.** At oblique incidence the reflected and transmitted powers, order by order, do not depend on the
orientation of the device together with its source. -/
theorem C73_fluxes (he : EigContract (lib.eig N)) {a : ℝ} (hx : c'.expansion = c.expansion.rotate a)
    (h : DeviceRun lib c stack m Ls er et wl te tm theta phi kpo kp c3)
    (h' : DeviceRun lib c' stack' m' Ls' er et wl te tm theta' phi' kpo' kp' c3')
    (hkp : kp' = rotate2 a kp)
    (hL : List.Forall₂ (fun l l' => l'.form = l.form ∧ l'.depth = l.depth) Ls Ls') (hwl : 0 < wl)
    (hob : (1 / 10 ^ 8) ^ 2 ≤ kp.1 ^ 2 + kp.2 ^ 2)
    (hf : c3.poyntingFluxEnd = .ok f) (hf' : c3'.poyntingFluxEnd = .ok f') : f' = f := by
  refine turned_fluxes he hx h h' hkp hL hwl hf hf' fun inc inc' hpos hi hi' => ?_
  have hk0 : 0 < 2 * Real.pi / wl := by have := Real.pi_pos; positivity
  have hcs := Real.cos_sq_add_sin_sq a
  have hn : kp'.1 ^ 2 + kp'.2 ^ 2 = kp.1 ^ 2 + kp.2 ^ 2 := by
    rw [hkp]
    simp only [rotate2]
    linear_combination (kp.1 ^ 2 + kp.2 ^ 2) * hcs
  generalize 2 * Real.pi / wl = k0 at *
  have hx1 : kp'.1 / k0 = Real.cos a * (kp.1 / k0) - Real.sin a * (kp.2 / k0) := by
    rw [hkp]; simp only [rotate2]; ring
  have hx2 : kp'.2 / k0 = Real.sin a * (kp.1 / k0) + Real.cos a * (kp.2 / k0) := by
    rw [hkp]; simp only [rotate2]; ring
  have q : (kp'.1 / k0) ^ 2 + (kp'.2 / k0) ^ 2 = (kp.1 / k0) ^ 2 + (kp.2 / k0) ^ 2 := by
    rw [div_pow, div_pow, div_pow, div_pow, ← add_div, hn, add_div]
  have q' : er - (kp'.1 / k0) ^ 2 - (kp'.2 / k0) ^ 2 = er - (kp.1 / k0) ^ 2 - (kp.2 / k0) ^ 2 := by linarith
  have d1 := incident_direction hk0 hpos hi (.inr hob)
  have d2 := incident_direction hk0 (by rw [q']; exact hpos) hi' (.inr (by rw [hn]; exact hob))
  simp only [q, q'] at d1 d2
  have hne : 0 < Real.sqrt ((kp.1 / k0) ^ 2 + (kp.2 / k0) ^ 2) := by
    refine Real.sqrt_pos.2 ?_
    rw [div_pow, div_pow, ← add_div]
    have : 0 < kp.1 ^ 2 + kp.2 ^ 2 := lt_of_lt_of_le (by positivity) hob
    positivity
  rcases d1 with ⟨z1, z2, -⟩ | ⟨ht, d1⟩
  · rw [z1, z2] at hne
    simp at hne
  rcases d2 with ⟨z1, z2, -⟩ | ⟨-, d2⟩
  · rw [← q, z1, z2] at hne
    simp at hne
  rw [d1, d2]
  funext j
  have htc : ((Real.sqrt ((kp.1 / k0) ^ 2 + (kp.2 / k0) ^ 2) : ℝ) : ℂ) ≠ 0 := by exact_mod_cast ht.ne'
  rcases j with j | j <;> simp only [turned, Sum.elim_inl, Sum.elim_inr, hx1, hx2] <;> push_cast <;> ring

/-- **C73.** At normal incidence, where the polarisation is given along the axes `x, y`, the powers are the same
when the polarisation is rotated with the device. -/
theorem C73_normal (he : EigContract (lib.eig N)) {a : ℝ} (hx : c'.expansion = c.expansion.rotate a)
    (h : DeviceRun lib c stack m Ls er et wl te tm theta phi kpo (0, 0) c3)
    (h' : DeviceRun lib c' stack' m' Ls' er et wl (Real.cos a * te - Real.sin a * tm)
      (Real.sin a * te + Real.cos a * tm) theta' phi' kpo' (0, 0) c3')
    (hL : List.Forall₂ (fun l l' => l'.form = l.form ∧ l'.depth = l.depth) Ls Ls') (hwl : 0 < wl)
    (hf : c3.poyntingFluxEnd = .ok f) (hf' : c3'.poyntingFluxEnd = .ok f') : f' = f := by
  refine turned_fluxes he hx h h' (by simp [rotate2]) hL hwl hf hf' fun inc inc' hpos hi hi' => ?_
  have hk0 : 0 < 2 * Real.pi / wl := by have := Real.pi_pos; positivity
  have d1 := incident_direction hk0 hpos hi (.inl ⟨rfl, rfl⟩)
  have d2 := incident_direction hk0 hpos hi' (.inl ⟨rfl, rfl⟩)
  have hn : polNorm (Real.cos a * te - Real.sin a * tm) (Real.sin a * te + Real.cos a * tm) = polNorm te tm := by
    unfold polNorm
    rw [norm_turn]
  rcases d1 with ⟨-, -, d1⟩ | ⟨ht, -⟩
  · rcases d2 with ⟨-, -, d2⟩ | ⟨ht, -⟩
    · rw [d1, d2, hn]
      funext j
      rcases j with j | j <;> simp only [turned, Sum.elim_inl, Sum.elim_inr] <;> ring
    · simp at ht
  · simp at ht

/-- **C73.** Adding the angle to `phi` rotates the wave vector of a source given by its angles. -/
theorem C73_angle {a : ℝ} (h : DeviceRun lib c stack m Ls er et wl te tm theta phi none kp c3)
    (h' : DeviceRun lib c' stack' m' Ls' er et wl te' tm' theta (phi + 180 / Real.pi * a) none kp' c3') :
    kp' = rotate2 a kp := by
  obtain ⟨hwl, h1⟩ := h.kp_eq
  obtain ⟨-, h2⟩ := h'.kp_eq
  have hpi := Real.pi_ne_zero
  have e : (phi + 180 / Real.pi * a) * (Real.pi / 180) = phi * (Real.pi / 180) + a := by field_simp
  simp only [Crystal.orDefault, computeKplanar, hwl, if_false, pure, Except.pure, bind, Except.bind,
    Except.ok.injEq, Prod.mk.injEq, e, Real.cos_add, Real.sin_add] at h1 h2
  apply Prod.ext
  · apply Complex.ofReal_injective
    rw [← h2.1, rotate2]
    push_cast
    rw [← h1.1, ← h1.2]
    push_cast
    ring
  · apply Complex.ofReal_injective
    rw [← h2.2, rotate2]
    push_cast
    rw [← h1.1, ← h1.2]
    push_cast
    ring

/-! ### C74 -/

/-- **C74.** When the pattern of every layer is shifted by the same vector, only the phases of the orders change. -/
theorem C74_scattering (he : EigContract (lib.eig N)) {t : R2} (hx : c'.expansion = c.expansion)
    (h : DeviceRun lib c stack m Ls er et wl te tm theta phi kpo kp c3)
    (h' : DeviceRun lib c' stack' m' Ls' er et wl te' tm' theta' phi' kpo' kp c3')
    (hL : List.Forall₂ (fun l l' => l.form.Shifted t l'.form ∧ l'.depth = l.depth) Ls Ls')
    (hst : c3.stacked = some st) (hst' : c3'.stacked = some st') (v : Vec2 N) :
    let P := c.expansion.pw.1
    st'.Stot.s11 *ᵥ shifted P t v = shifted P t (st.Stot.s11 *ᵥ v) ∧
    st'.Stot.s12 *ᵥ shifted P t v = shifted P t (st.Stot.s12 *ᵥ v) ∧
    st'.Stot.s21 *ᵥ shifted P t v = shifted P t (st.Stot.s21 *ᵥ v) ∧
    st'.Stot.s22 *ᵥ shifted P t v = shifted P t (st.Stot.s22 *ᵥ v) := by
  intro P
  set d : Fin N → ℂ := fun i => shiftPhase P t i with hd
  have hd0 : ∀ i, d i ≠ 0 := fun i => norm_ne_zero_iff.1 (by rw [hd]; simp only [shiftPhase_norm]; norm_num)
  have hmul : ∀ v : Vec2 N, phaseMat d *ᵥ v = shifted P t v := by
    intro v
    funext j
    rw [phaseMat, mulVec_diagonal]
    rcases j with j | j <;> rfl
  have hone : ∀ (e : ℂ) (i j : Fin N), (e • (1 : Matrix (Fin N) (Fin N) ℂ)) i j * d j =
      d i * (e • (1 : Matrix (Fin N) (Fin N) ℂ)) i j := by
    intro e i j
    by_cases hij : i = j
    · subst hij; rw [mul_comm]
    · simp [Matrix.one_apply_ne hij]
  have hone' : ∀ i j : Fin N, (1 : Matrix (Fin N) (Fin N) ℂ) i j * d j = d i * (1 : Matrix (Fin N) (Fin N) ℂ) i j := by
    intro i j; simpa using hone 1 i j
  obtain ⟨e1, e2, e3, e4⟩ := runs_carry he h h' (phaseMat_unit hd0) (phaseMat_unit hd0)
    (hL.imp fun l l' hl => ⟨by rw [hl.2], fun C C' h0 h0' hC hC' => by
      rw [hx] at hC' ⊢
      have hs := permittivity_shift hl.1 hC hC'
      rw [maxwellP_eq, maxwellP_eq, maxwellQ_eq, maxwellQ_eq]
      exact ⟨phase_block (phase_inv h0 h0' hs) hone', phase_block hone' hs⟩⟩)
    (fun e => by rw [hx, maxwellQ_eq]; exact phase_block hone' (hone e))
    (by
      intro i j hij
      have : i = j := by
        by_contra hne
        exact hij (by rw [phaseMat, diagonal_apply_ne _ hne])
      rw [hx, this])
    hst hst'
  simp only [← hmul, mulVec_mulVec, e1, e2, e3, e4, and_self]

/-- **C74.** The powers of every order do not depend on the origin of the pattern. -/
theorem C74_fluxes (he : EigContract (lib.eig N)) {t : R2} (hx : c'.expansion = c.expansion)
    (h : DeviceRun lib c stack m Ls er et wl te tm theta phi kpo kp c3)
    (h' : DeviceRun lib c' stack' m' Ls' er et wl te tm theta' phi' kpo' kp c3')
    (hL : List.Forall₂ (fun l l' => l.form.Shifted t l'.form ∧ l'.depth = l.depth) Ls Ls') (hwl : 0 < wl)
    (hf : c3.poyntingFluxEnd = .ok f) (hf' : c3'.poyntingFluxEnd = .ok f') : f' = f := by
  obtain ⟨st, inc, hst, hi, hpos, hR, hT, r, tt⟩ := h.fluxes hwl hf
  obtain ⟨st', inc', hst', hi', -, hR', hT', r', tt'⟩ := h'.fluxes hwl hf'
  rw [hi, Except.ok.injEq] at hi'
  subst hi'
  obtain ⟨-, -, aTE, aTM, -, hinc⟩ := incident_eq_ok.1 hi
  set P := c.expansion.pw.1 with hP
  set d0 := shiftPhase P t ((N - 1) / 2) with hd0
  have hd1 : ‖d0‖ = 1 := shiftPhase_norm _ _ _
  have hne : d0 ≠ 0 := norm_ne_zero_iff.1 (by rw [hd1]; norm_num)
  have hv : shifted P t (d0⁻¹ • inc) = inc := by
    funext j
    rw [hinc]
    rcases j with j | j <;>
    · simp only [shifted, Pi.smul_apply, Sum.elim_inl, Sum.elim_inr, smul_eq_mul, id]
      by_cases hj : (j : ℕ) = (N - 1) / 2
      · rw [if_pos hj, hj, ← hd0]; field_simp
      · rw [if_neg hj]; ring
  obtain ⟨e1, -, e3, -⟩ := C74_scattering he hx h h' hL hst hst' (d0⁻¹ • inc)
  rw [← hP, hv, mulVec_smul] at e1 e3
  have hn : ∀ i : Fin N, ‖shiftPhase P t i * d0⁻¹‖ = 1 := by
    intro i; rw [norm_mul, norm_inv, hd1, shiftPhase_norm, inv_one, one_mul]
  refine Fluxes.ext' (fun i => ?_) (fun i => ?_) r r' tt tt'
  · rw [hR, hR', e1, hx, waveNorm_phase (hn i) (v := st.Stot.s11 *ᵥ inc)]
    · simp only [shifted, Sum.elim_inl, Pi.smul_apply, smul_eq_mul, id]; ring
    · simp only [shifted, Sum.elim_inr, Pi.smul_apply, smul_eq_mul, id]; ring
  · rw [hT, hT', e3, hx, waveNorm_phase (hn i) (v := st.Stot.s21 *ᵥ inc)]
    · simp only [shifted, Sum.elim_inl, Pi.smul_apply, smul_eq_mul, id]; ring
    · simp only [shifted, Sum.elim_inr, Pi.smul_apply, smul_eq_mul, id]; ring

end

section
variable {pw : ℕ × ℕ} {lib : NumLib} {c c3 c' c3' : Crystal (pw.1 * pw.2)} {stack stack' : List String}
  {m m' : Bool ⊕ List Bool} {Ls Ls' : List (Layer (pw.1 * pw.2))} {er et wl s : ℝ} {te tm te' tm' : ℂ}
  {theta phi : ℝ} {kpo : Option (ℂ × ℂ)} {kp kp' : R2} {tag tag' : ℕ} {lat : R2 × R2}
  {st st' : Stacked (Fin (pw.1 * pw.2) ⊕ Fin (pw.1 * pw.2))} {f f' : Crystal.Fluxes (pw.1 * pw.2)}

/-! ### C72 -/

/-- **C72.** The wave vector of a source is divided by the scale, whether it is given or computed from the angles. -/
theorem C72_source (hs : 0 < s)
    (h : DeviceRun lib c stack m Ls er et wl te tm theta phi kpo kp c3)
    (h' : DeviceRun lib c' stack' m' Ls' er et (s * wl) te' tm' theta phi (kpo.map fun k => (k.1 / s, k.2 / s)) kp' c3') :
    kp' = (kp.1 / s, kp.2 / s) := by
  obtain ⟨hwl, h1⟩ := h.kp_eq
  obtain ⟨-, h2⟩ := h'.kp_eq
  have hsc : (s : ℂ) ≠ 0 := by exact_mod_cast hs.ne'
  have hwc : (wl : ℂ) ≠ 0 := by exact_mod_cast hwl
  have hswl : s * wl ≠ 0 := mul_ne_zero hs.ne' hwl
  have key : ((kp'.1 : ℂ), (kp'.2 : ℂ)) = ((kp.1 : ℂ) / s, (kp.2 : ℂ) / s) := by
    cases kpo with
    | none =>
      simp only [Crystal.orDefault, computeKplanar, hwl, hswl, if_false, pure, Except.pure, bind, Except.bind,
        Except.ok.injEq, Prod.mk.injEq, Option.map_none] at h1 h2
      rw [← h1.1, ← h1.2, ← h2.1, ← h2.2]
      push_cast
      ext1 <;> simp only <;> field_simp
    | some k =>
      simp only [Crystal.orDefault, Except.ok.injEq, Option.map_some] at h1 h2
      rw [← h2, h1]
  rw [Prod.mk.injEq] at key
  apply Prod.ext
  · exact_mod_cast key.1
  · exact_mod_cast key.2

/-- **C72.** A device enlarged `s` times and seen at a wavelength `s` times larger has the same S-matrix. -/
theorem C72_scattering (he : EigContract (lib.eig (pw.1 * pw.2))) (hs : 0 < s)
    (hE : Expansion.make tag pw lat = .ok c.expansion)
    (hE' : Expansion.make tag' pw (scaledLattice s lat) = .ok c'.expansion)
    (hp : Periods c.expansion.reciprocal) (hp' : Periods c'.expansion.reciprocal)
    (h : DeviceRun lib c stack m Ls er et wl te tm theta phi kpo kp c3)
    (h' : DeviceRun lib c' stack' m' Ls' er et (s * wl) te' tm' theta phi (kpo.map fun k => (k.1 / s, k.2 / s)) kp' c3')
    (hL : List.Forall₂ (fun l l' => l'.form = l.form.scale s ∧ l'.depth = s * l.depth) Ls Ls')
    (hst : c3.stacked = some st) (hst' : c3'.stacked = some st') : st'.Stot = st.Stot := by
  have hkp := C72_source hs h h'
  have hwl := h.kp_eq.1
  have hen := enlarged_make hs hE hE'
  have h0 : c.expansion.pw.1 ≠ 0 ∧ c.expansion.pw.2 ≠ 0 := by
    obtain ⟨o1, o2, b, -, e⟩ := make_eq_ok.1 hE
    rw [e]
    constructor <;> simp only <;> omega
  have k1 : orderKx c'.expansion kp' (s * wl) = orderKx c.expansion kp wl := by
    funext i
    simp only [orderKx, hkp, hen.g]
    have := Real.pi_pos
    have := hs.ne'
    field_simp
  have k2 : orderKy c'.expansion kp' (s * wl) = orderKy c.expansion kp wl := by
    funext i
    simp only [orderKy, hkp, hen.g]
    have := Real.pi_pos
    have := hs.ne'
    field_simp
  obtain ⟨e1, e2, e3, e4⟩ := runs_carry he h h' isUnit_one isUnit_one
    (hL.imp fun l l' hl => ⟨by rw [hl.2]; have := hs.ne'; field_simp, fun C C' h0' h0'' hC hC' => by
      rw [hl.1] at hC'
      rw [k1, k2, permittivity_scale hs hen hp hp' h0 hC hC']
      simp⟩)
    (fun e => by rw [k1, k2]; simp)
    (by
      intro i j hij
      have : i = j := by
        by_contra hne
        exact hij (Matrix.one_apply_ne hne)
      rw [k1, k2, this])
    hst hst'
  simp only [Matrix.mul_one, Matrix.one_mul] at e1 e2 e3 e4
  cases hS : st.Stot
  cases hS' : st'.Stot
  rw [hS, hS'] at e1 e2 e3 e4
  simp only at e1 e2 e3 e4
  rw [e1, e2, e3, e4]

/-- **C72.** It also reflects and transmits the same powers, order by order. -/
theorem C72_fluxes (he : EigContract (lib.eig (pw.1 * pw.2))) (hs : 0 < s)
    (hE : Expansion.make tag pw lat = .ok c.expansion)
    (hE' : Expansion.make tag' pw (scaledLattice s lat) = .ok c'.expansion)
    (hp : Periods c.expansion.reciprocal) (hp' : Periods c'.expansion.reciprocal)
    (h : DeviceRun lib c stack m Ls er et wl te tm theta phi kpo kp c3)
    (h' : DeviceRun lib c' stack' m' Ls' er et (s * wl) te tm theta phi (kpo.map fun k => (k.1 / s, k.2 / s)) kp' c3')
    (hL : List.Forall₂ (fun l l' => l'.form = l.form.scale s ∧ l'.depth = s * l.depth) Ls Ls') (hwl : 0 < wl)
    (hob : kp = (0, 0) ∨ ((1 / 10 ^ 8) ^ 2 ≤ kp.1 ^ 2 + kp.2 ^ 2 ∧ (1 / 10 ^ 8) ^ 2 ≤ kp'.1 ^ 2 + kp'.2 ^ 2))
    (hf : c3.poyntingFluxEnd = .ok f) (hf' : c3'.poyntingFluxEnd = .ok f') : f' = f := by
  have hkp := C72_source hs h h'
  have hen := enlarged_make hs hE hE'
  have hwl' : 0 < s * wl := mul_pos hs hwl
  obtain ⟨st, inc, hst, hi, hpos, hR, hT, r, t⟩ := h.fluxes hwl hf
  obtain ⟨st', inc', hst', hi', hpos', hR', hT', r', t'⟩ := h'.fluxes hwl' hf'
  have hS := C72_scattering he hs hE hE' hp hp' h h' hL hst hst'
  have hpi := Real.pi_pos
  have hsn := hs.ne'
  have k1 : orderKx c'.expansion kp' (s * wl) = orderKx c.expansion kp wl := by
    funext i
    simp only [orderKx, hkp, hen.g]
    field_simp
  have k2 : orderKy c'.expansion kp' (s * wl) = orderKy c.expansion kp wl := by
    funext i
    simp only [orderKy, hkp, hen.g]
    field_simp
  have x1 : kp'.1 / (2 * Real.pi / (s * wl)) = kp.1 / (2 * Real.pi / wl) := by rw [hkp]; field_simp
  have x2 : kp'.2 / (2 * Real.pi / (s * wl)) = kp.2 / (2 * Real.pi / wl) := by rw [hkp]; field_simp
  have hii : inc' = inc := by
    have d1 := incident_direction (by positivity) hpos hi (hob.imp (fun h => by rw [h]; exact ⟨rfl, rfl⟩) (·.1))
    have d2 := incident_direction (by positivity) hpos' hi'
      (hob.imp (fun h => by rw [hkp, h]; exact ⟨by simp, by simp⟩) (·.2))
    simp only [x1, x2] at d2
    rcases d1 with ⟨z1, z2, d1⟩ | ⟨p1, d1⟩ <;> rcases d2 with ⟨z1', z2', d2⟩ | ⟨p2, d2⟩
    · rw [d1, d2]
    · rw [z1, z2] at p2; simp at p2
    · rw [z1', z2'] at p1; simp at p1
    · rw [d1, d2]
  refine Fluxes.ext' (fun i => ?_) (fun i => ?_) r r' t t'
  · rw [hR, hR', hii, hS, k1, k2, x1, x2]
  · rw [hT, hT', hii, hS, k1, k2, x1, x2]

end

/-! ### Non-vacuity -/

/-- Non-vacuity of C72: a vacuum layer on a square lattice with 3 × 3 orders and its double. -/
example : ∃ (lib : NumLib) (c c' c3 c3' : Crystal (3 * 3)) (Ls Ls' : List (Layer (3 * 3)))
    (f f' : Crystal.Fluxes (3 * 3)),
    EigContract (lib.eig (3 * 3)) ∧ Expansion.make 0 (3, 3) ((1, 0), (0, 1)) = .ok c.expansion ∧
    Expansion.make 1 (3, 3) (scaledLattice 2 ((1, 0), (0, 1))) = .ok c'.expansion ∧
    Periods c.expansion.reciprocal ∧ Periods c'.expansion.reciprocal ∧
    DeviceRun lib c ["a"] (.inl true) Ls 1 1 2 1 1 0 0 (some ((Real.pi / 2 : ℝ), (0 : ℝ))) (Real.pi / 2, 0) c3 ∧
    DeviceRun lib c' ["a"] (.inl true) Ls' 1 1 (2 * 2) 1 1 0 0
      ((some (((Real.pi / 2 : ℝ) : ℂ), ((0 : ℝ) : ℂ))).map fun k => (k.1 / (2 : ℝ), k.2 / (2 : ℝ)))
      (Real.pi / 2 / 2, 0 / 2) c3' ∧
    List.Forall₂ (fun l l' => l'.form = l.form.scale 2 ∧ l'.depth = 2 * l.depth) Ls Ls' ∧ Ls ≠ [] ∧
    c3.poyntingFluxEnd = .ok f ∧ c3'.poyntingFluxEnd = .ok f' := by
  have hpi := Real.pi_pos
  have hp3 := Real.two_le_pi
  obtain ⟨e, he, hr, -, -⟩ := unit_expansion 0 (pw := (3, 3)) rfl rfl
  have hne : ∃ e' : Expansion (3 * 3), Expansion.make 1 (3, 3) ((2, 0), (0, 2)) = .ok e' ∧
      e'.reciprocal = ((Real.pi, 0), (0, Real.pi)) := by
    refine ⟨_, make_eq_ok.2 ⟨rfl, rfl, _, reciproc_eq_ok.2 ⟨by norm_num, rfl⟩, rfl⟩, ?_⟩
    simp only [Prod.mk.injEq]
    norm_num
    ring
  obtain ⟨e', he', hr'⟩ := hne
  have hpol : polNorm (1 : ℂ) 1 ≠ 0 := by simp [polNorm]
  have k0 : Real.pi / 2 / (2 * Real.pi / 2) = 1 / 2 := by field_simp
  have k0' : Real.pi / 2 / 2 / (2 * Real.pi / (2 * 2)) = 1 / 2 := by field_simp
  obtain ⟨c3, f, h1, h2⟩ := vacuum_run plateLib e (by norm_num) (wl := 2) two_pos (kp := (Real.pi / 2, 0))
    (by
      intro i
      have := halfBragg one_pos he i
      simpa using this)
    hpol (theta := 0) (phi := 0) (kpo := some (((Real.pi / 2 : ℝ) : ℂ), ((0 : ℝ) : ℂ))) rfl
    (by simp only [k0]; norm_num) (.inr (by simp only; nlinarith)) (1 / 3)
  obtain ⟨c3', f', h1', h2'⟩ := vacuum_run plateLib e' (by norm_num) (wl := 2 * 2) (by norm_num)
    (kp := (Real.pi / 2 / 2, 0 / 2))
    (by
      intro i
      have := halfBragg two_pos he' i
      simpa using this)
    hpol (theta := 0) (phi := 0)
    (kpo := (some (((Real.pi / 2 : ℝ) : ℂ), ((0 : ℝ) : ℂ))).map fun k => (k.1 / (2 : ℝ), k.2 / (2 : ℝ)))
    (by simp [Crystal.orDefault])
    (by simp only [k0']; norm_num) (.inr (by simp only; nlinarith)) (2 * (1 / 3))
  refine ⟨plateLib, _, _, c3, c3', _, _, f, f', plateLib_contract _, he, ?_, ?_, ?_, h1, h1', ?_, by simp,
    h2, h2'⟩
  · rw [show scaledLattice 2 ((1, 0), (0, 1)) = ((2, 0), (0, 2)) by simp [scaledLattice]]; exact he'
  · exact hr ▸ unit_periods
  · show Periods e'.reciprocal
    rw [hr']
    intro mn
    have key : ∀ m : ℤ, m ≠ 0 → 1 / 10 ^ 8 < |(m : ℝ) * Real.pi| := by
      intro m hm
      rw [abs_mul, abs_of_pos hpi]
      have : (1 : ℝ) ≤ |(m : ℝ)| := by exact_mod_cast Int.one_le_abs hm
      nlinarith
    simp only [mul_zero, add_zero, zero_add]
    by_cases h1 : mn.1 = 0
    · by_cases h2 : mn.2 = 0
      · exact Or.inl (by simp [h1, h2])
      · exact Or.inr (Or.inr (key _ h2))
    · exact Or.inr (Or.inl (key _ h1))
  · exact .cons ⟨rfl, rfl⟩ .nil

/-- Non-vacuity of C73: a vacuum layer on a square lattice with 3 × 3 orders, turned by any angle. -/
example (a : ℝ) : ∃ (lib : NumLib) (c c' c3 c3' : Crystal (3 * 3)) (Ls Ls' : List (Layer (3 * 3)))
    (kpo kpo' : Option (ℂ × ℂ)) (f f' : Crystal.Fluxes (3 * 3)),
    EigContract (lib.eig (3 * 3)) ∧ c'.expansion = c.expansion.rotate a ∧
    DeviceRun lib c ["a"] (.inl true) Ls 1 1 2 1 Complex.I 0 0 kpo (Real.pi / 2, 0) c3 ∧
    DeviceRun lib c' ["a"] (.inl true) Ls' 1 1 2 1 Complex.I 0 0 kpo' (rotate2 a (Real.pi / 2, 0)) c3' ∧
    List.Forall₂ (fun l l' => l'.form = l.form ∧ l'.depth = l.depth) Ls Ls' ∧ Ls ≠ [] ∧
    (1 / 10 ^ 8 : ℝ) ^ 2 ≤ (Real.pi / 2) ^ 2 + 0 ^ 2 ∧
    c3.poyntingFluxEnd = .ok f ∧ c3'.poyntingFluxEnd = .ok f' := by
  have hpi := Real.pi_pos
  have hp3 := Real.two_le_pi
  have hcs := Real.cos_sq_add_sin_sq a
  obtain ⟨e, he, hr, -, -⟩ := unit_expansion 0 (pw := (3, 3)) rfl rfl
  have hpol : polNorm (1 : ℂ) Complex.I ≠ 0 := by simp [polNorm]
  have k0 : Real.pi / 2 / (2 * Real.pi / 2) = 1 / 2 := by field_simp
  have hg : ∀ i, 1 - orderKx e (Real.pi / 2, 0) 2 i ^ 2 - orderKy e (Real.pi / 2, 0) 2 i ^ 2 ≠ 0 := by
    intro i
    have := halfBragg one_pos he i
    simpa using this
  obtain ⟨c3, f, h1, h2⟩ := vacuum_run plateLib e (by norm_num) (wl := 2) two_pos (kp := (Real.pi / 2, 0))
    hg hpol (theta := 0) (phi := 0) (kpo := some (((Real.pi / 2 : ℝ) : ℂ), ((0 : ℝ) : ℂ))) rfl
    (by simp only [k0]; norm_num) (.inr (by simp only; nlinarith)) (1 / 3)
  obtain ⟨c3', f', h1', h2'⟩ := vacuum_run plateLib (e.rotate a) (by norm_num) (wl := 2) two_pos
    (kp := rotate2 a (Real.pi / 2, 0))
    (by
      intro i
      have := hg i
      have k1 : orderKx (e.rotate a) (rotate2 a (Real.pi / 2, 0)) 2 i =
          Real.cos a * orderKx e (Real.pi / 2, 0) 2 i - Real.sin a * orderKy e (Real.pi / 2, 0) 2 i := by
        simp only [orderKx, orderKy, Expansion.rotate, rotate2]; ring
      have k2 : orderKy (e.rotate a) (rotate2 a (Real.pi / 2, 0)) 2 i =
          Real.sin a * orderKx e (Real.pi / 2, 0) 2 i + Real.cos a * orderKy e (Real.pi / 2, 0) 2 i := by
        simp only [orderKx, orderKy, Expansion.rotate, rotate2]; ring
      intro h0
      apply this
      rw [k1, k2] at h0
      linear_combination h0 + (orderKx e (Real.pi / 2, 0) 2 i ^ 2 + orderKy e (Real.pi / 2, 0) 2 i ^ 2) * hcs)
    hpol (theta := 0) (phi := 0)
    (kpo := some ((((rotate2 a (Real.pi / 2, 0)).1 : ℝ) : ℂ), (((rotate2 a (Real.pi / 2, 0)).2 : ℝ) : ℂ))) rfl
    (by
      have : (1 : ℝ) - ((rotate2 a (Real.pi / 2, 0)).1 / (2 * Real.pi / 2)) ^ 2 -
          ((rotate2 a (Real.pi / 2, 0)).2 / (2 * Real.pi / 2)) ^ 2 = 3 / 4 := by
        simp only [rotate2]
        field_simp
        linear_combination (-4 * Real.pi ^ 2) * hcs
      rw [this]; norm_num)
    (.inr (by
      have : (rotate2 a (Real.pi / 2, 0)).1 ^ 2 + (rotate2 a (Real.pi / 2, 0)).2 ^ 2 = Real.pi ^ 2 / 4 := by
        simp only [rotate2]
        linear_combination (Real.pi ^ 2 / 4) * hcs
      rw [this]
      nlinarith)) (1 / 3)
  exact ⟨plateLib, _, _, c3, c3', _, _, _, _, f, f', plateLib_contract _, rfl, h1, h1', .cons ⟨rfl, rfl⟩ .nil, by simp,
    by nlinarith, h2, h2'⟩

/-- Non-vacuity of C73 at normal incidence: the polarisation is turned with the lattice. -/
example (a : ℝ) : ∃ (lib : NumLib) (c c' c3 c3' : Crystal (3 * 3)) (Ls Ls' : List (Layer (3 * 3)))
    (kpo : Option (ℂ × ℂ)) (f f' : Crystal.Fluxes (3 * 3)),
    EigContract (lib.eig (3 * 3)) ∧ c'.expansion = c.expansion.rotate a ∧
    DeviceRun lib c ["a"] (.inl true) Ls 1 1 2 1 0 0 0 kpo (0, 0) c3 ∧
    DeviceRun lib c' ["a"] (.inl true) Ls' 1 1 2 (Real.cos a * 1 - Real.sin a * 0) (Real.sin a * 1 + Real.cos a * 0)
      0 0 kpo (0, 0) c3' ∧
    List.Forall₂ (fun l l' => l'.form = l.form ∧ l'.depth = l.depth) Ls Ls' ∧ Ls ≠ [] ∧
    c3.poyntingFluxEnd = .ok f ∧ c3'.poyntingFluxEnd = .ok f' := by
  have hpi := Real.pi_pos
  have hcs := Real.cos_sq_add_sin_sq a
  obtain ⟨e, he, hr, -, -⟩ := unit_expansion 0 (pw := (3, 3)) rfl rfl
  have hpol : polNorm (1 : ℂ) 0 ≠ 0 := by simp [polNorm]
  have hpol' : polNorm (Real.cos a * 1 - Real.sin a * 0) (Real.sin a * 1 + Real.cos a * 0) ≠ 0 := by
    unfold polNorm
    rw [norm_turn]
    simp
  have hg : ∀ i, 1 - orderKx e (0, 0) 2 i ^ 2 - orderKy e (0, 0) 2 i ^ 2 ≠ 0 := by
    intro i
    obtain ⟨-, -, b, hb, rfl⟩ := make_eq_ok.1 he
    obtain ⟨-, rfl⟩ := reciproc_eq_ok.1 hb
    simp only [orderKx, orderKy, latticeVec]
    generalize orderAt (3, 3) i = mn
    obtain ⟨m, n⟩ := mn
    intro h
    have h' : (1 : ℝ) = 4 * (m ^ 2 + n ^ 2) := by
      field_simp at h
      ring_nf at h
      have hp2 : Real.pi ^ 2 ≠ 0 := by positivity
      have : Real.pi ^ 2 * 1 = Real.pi ^ 2 * (4 * ((m : ℝ) ^ 2 + n ^ 2)) := by linarith
      exact mul_left_cancel₀ hp2 this
    have h'' : (1 : ℤ) = 4 * (m ^ 2 + n ^ 2) := by exact_mod_cast h'
    omega
  obtain ⟨c3, f, h1, h2⟩ := vacuum_run plateLib e (by norm_num) (wl := 2) two_pos (kp := (0, 0))
    hg hpol (theta := 0) (phi := 0) (kpo := some (((0 : ℝ) : ℂ), ((0 : ℝ) : ℂ))) rfl
    (by simp) (.inl ⟨rfl, rfl⟩) (1 / 3)
  obtain ⟨c3', f', h1', h2'⟩ := vacuum_run plateLib (e.rotate a) (by norm_num) (wl := 2) two_pos
    (kp := (0, 0))
    (by
      intro i
      have := hg i
      have k1 : orderKx (e.rotate a) (0, 0) 2 i =
          Real.cos a * orderKx e (0, 0) 2 i - Real.sin a * orderKy e (0, 0) 2 i := by
        simp only [orderKx, orderKy, Expansion.rotate, rotate2]; ring
      have k2 : orderKy (e.rotate a) (0, 0) 2 i =
          Real.sin a * orderKx e (0, 0) 2 i + Real.cos a * orderKy e (0, 0) 2 i := by
        simp only [orderKx, orderKy, Expansion.rotate, rotate2]; ring
      intro h0
      apply this
      rw [k1, k2] at h0
      linear_combination h0 + (orderKx e (0, 0) 2 i ^ 2 + orderKy e (0, 0) 2 i ^ 2) * hcs)
    hpol' (theta := 0) (phi := 0)
    (kpo := some (((0 : ℝ) : ℂ), ((0 : ℝ) : ℂ))) rfl
    (by simp) (.inl ⟨rfl, rfl⟩) (1 / 3)
  exact ⟨plateLib, _, _, c3, c3', _, _, _, f, f', plateLib_contract _, rfl, h1, h1', .cons ⟨rfl, rfl⟩ .nil, by simp,
    h2, h2'⟩

/-- Pixmap of one period: a bar of permittivity 3 and one of permittivity 5. -/
def barPix : Arr2 := ⟨2, 1, fun x _ => if x = 0 then 3 else 5⟩

/-- Non-vacuity of C74: the two bars exchanged, that is, the pattern shifted by half a period. -/
example : ∃ (lib : NumLib) (c c' c3 c3' : Crystal 1) (Ls Ls' : List (Layer 1)) (f f' : Crystal.Fluxes 1),
    EigContract (lib.eig 1) ∧ c'.expansion = c.expansion ∧
    DeviceRun lib c ["a"] (.inl true) Ls 1 1 1 1 0 0 0 (some (0, 0)) (0, 0) c3 ∧
    DeviceRun lib c' ["a"] (.inl true) Ls' 1 1 1 1 0 0 0 (some (0, 0)) (0, 0) c3' ∧
    List.Forall₂ (fun l l' => l.form.Shifted (1 / 2, 0) l'.form ∧ l'.depth = l.depth) Ls Ls' ∧
    Ls.map Layer.form = [.fft barPix] ∧
    c3.poyntingFluxEnd = .ok f ∧ c3'.poyntingFluxEnd = .ok f' := by
  have hC : ∀ val : Fin 2 → Fin 1 → ℂ, val 0 0 + val 1 0 = 8 →
      convolutionMatrix 1 ⟨2, 1, val⟩ (1, 1) = .ok ((4 : ℂ) • 1) := by
    intro val hval
    have h := convolutionMatrix_ok (a := ⟨2, 1, val⟩) (pw := (1, 1)) (by simp) (by simp) (by simp) (by simp)
    refine h.trans (congrArg Except.ok ?_)
    ext i j
    have hi : i = (0 : Fin 1) := Subsingleton.elim (α := Fin 1) _ _
    have hj : j = (0 : Fin 1) := Subsingleton.elim (α := Fin 1) _ _
    subst hi hj
    have hs : (∑ x : Fin 2, val x 0) = 8 := by rw [Fin.sum_univ_two, hval]
    norm_num [diffAt, fourierCoef]
    refine (congrArg (· / (2 : ℂ)) hs).trans ?_
    norm_num
  obtain ⟨r, -, hr⟩ := meanFour_solve (a := barPix) (hC _ (by norm_num))
  obtain ⟨r', -, hr'⟩ := meanFour_solve (a := barPix.roll 1 0) (hC _ ((by norm_num : (5 : ℂ) + 3 = 8)))
  have hg : ∀ i, 1 - orderKx exampleExpansion (0, 0) 1 i ^ 2 - orderKy exampleExpansion (0, 0) 1 i ^ 2 ≠ 0 := by
    intro i; simp [orderKx, orderKy, exampleExpansion]
  have hpol : polNorm (1 : ℂ) 0 ≠ 0 := by simp [polNorm]
  obtain ⟨c3, st, h1, -, -, h2⟩ := oneLayer_run plateLib exampleExpansion one_pos hg 1 0 (theta := 0) (phi := 0)
    (kpo := some (0, 0)) (by simp [Crystal.orDefault]) (f := .fft barPix) (by simp [Form.isLayer])
    (by simpa using hr) true
  obtain ⟨c3', st', h1', -, -, h2'⟩ := oneLayer_run plateLib exampleExpansion one_pos hg 1 0 (theta := 0) (phi := 0)
    (kpo := some (0, 0)) (by simp [Crystal.orDefault]) (f := .fft (barPix.roll 1 0)) (by simp [Form.isLayer])
    (by simpa using hr') true
  obtain ⟨f, hf⟩ := h2 one_pos hpol (by simp) (.inl ⟨rfl, rfl⟩)
  obtain ⟨f', hf'⟩ := h2' one_pos hpol (by simp) (.inl ⟨rfl, rfl⟩)
  exact ⟨plateLib, oneLayer exampleExpansion (.fft barPix) _, oneLayer exampleExpansion (.fft (barPix.roll 1 0)) _,
    c3, c3', _, _, f, f', plateLib_contract _, rfl, h1, h1', .cons ⟨⟨1, 0, by norm_num [barPix], by norm_num, rfl⟩, rfl⟩ .nil, rfl, hf, hf'⟩

end Khepri
