import Verif.Lemmas.Flux
import Verif.Lemmas.CrystalView
import Verif.Lemmas.SetDevice
import Verif.Lemmas.Expansion

set_option linter.unusedSectionVars false

namespace Khepri

open Matrix

variable {N : ℕ}

theorem outerKz_mul_sq {k x : ℝ} (hk : 0 < k) : outerKz (k ^ 2 * x) = k * outerKz x := by
  unfold outerKz
  have hk2 : 0 < k ^ 2 := by positivity
  by_cases h : 0 ≤ x
  · rw [if_pos h, if_pos (by positivity), Real.sqrt_mul hk2.le, Real.sqrt_sq hk.le]; push_cast; rfl
  · rw [if_neg h, if_neg (by push Not at h ⊢; exact mul_neg_of_pos_of_neg hk2 h), ← mul_neg,
      Real.sqrt_mul hk2.le, Real.sqrt_sq hk.le]
    push_cast; ring

theorem outerKz_re_nonneg (x : ℝ) : 0 ≤ (outerKz x).re := by
  unfold outerKz
  split_ifs
  · simp [Real.sqrt_nonneg]
  · simp

/-- Unless it is evanescent, the longitudinal wave number is a positive number. -/
theorem outerKz_re_ne_zero {x : ℝ} (h : (outerKz x).re ≠ 0) : 0 < x ∧ outerKz x = (Real.sqrt x : ℂ) := by
  rcases lt_trichotomy x 0 with hx | hx | hx
  · rw [outerKz_neg hx] at h; simp at h
  · rw [hx] at h; simp [outerKz] at h
  · exact ⟨hx, outerKz_pos hx⟩

namespace Crystal

theorem setSource_eq_ok {c c' : Crystal N} {wl : ℝ} {te tm : ℂ} {theta phi : ℝ}
    {kp : Option (ℂ × ℂ)} :
    c.setSource wl te tm theta phi kp = .ok c' ↔ wl ≠ 0 ∧ ∃ k,
      orDefault kp (computeKplanar c.epsi wl theta phi) = .ok k ∧
      c' = { c with source := some ⟨te, tm, theta, phi, wl, k,
        star (csqrt (((2 * Real.pi / wl : ℝ) : ℂ) ^ 2 * c.epsi - k.1 ^ 2 - k.2 ^ 2))⟩ } := by
  unfold setSource
  by_cases h : wl = 0
  · simp only [bind_eq_ok, h, if_true, throw, throwThe, MonadExceptOf.throw, error_bind, ne_eq,
      not_true_eq_false, false_and, iff_false]
    rintro ⟨_, _, h⟩; simp at h
  · simp only [bind_eq_ok, h, if_false, pure, Except.pure, Except.ok.injEq, ne_eq, not_false_eq_true,
      true_and]
    constructor
    · rintro ⟨k, hk, rfl⟩; exact ⟨k, hk, rfl⟩
    · rintro ⟨k, hk, rfl⟩; exact ⟨k, hk, rfl⟩

end Crystal

theorem poyntingFluxes_eq_ok {e : Expansion N} {c : Vec2 N} {kp : ℂ × ℂ} {wl : ℝ} {epsi epse : ℂ}
    {r : ℝ × (Fin N → ℝ)} :
    poyntingFluxes e c kp wl epsi epse = .ok r ↔ wl ≠ 0 ∧ ∃ kx ky kz,
      e.kVectors kp wl epse = .ok (kx, ky, kz) ∧ (∀ i, kz i ≠ 0) ∧
      (star (csqrt (((2 * Real.pi / wl : ℝ) : ℂ) ^ 2 * epsi - kp.1 ^ 2 - kp.2 ^ 2)) /
        ((2 * Real.pi / wl : ℝ) : ℂ)).re ≠ 0 ∧
      r.2 = (fun i => (kz i).re /
        (star (csqrt (((2 * Real.pi / wl : ℝ) : ℂ) ^ 2 * epsi - kp.1 ^ 2 - kp.2 ^ 2)) /
          ((2 * Real.pi / wl : ℝ) : ℂ)).re *
        (‖c (.inl i)‖ ^ 2 + ‖c (.inr i)‖ ^ 2 +
          ‖-(kx i * c (.inl i) + ky i * c (.inr i)) / kz i‖ ^ 2)) ∧ r.1 = ∑ i, r.2 i := by
  obtain ⟨r1, r2⟩ := r
  unfold poyntingFluxes
  by_cases h : wl = 0
  · simp [h, throw, throwThe, MonadExceptOf.throw, error_bind]
  · simp only [h, if_false, bind_eq_ok, pyCheck_eq_ok, pure, Except.pure, ne_eq,
      not_false_eq_true, true_and]
    constructor
    · rintro ⟨⟨kx, ky, kz⟩, hk, -, hz, h⟩
      simp only at h
      split_ifs at h with h0
      · simp [throw, throwThe, MonadExceptOf.throw, error_bind] at h
      · simp only [Except.ok.injEq, Prod.mk.injEq] at h
        obtain ⟨rfl, rfl⟩ := h
        exact ⟨kx, ky, kz, hk, hz, h0, rfl, rfl⟩
    · rintro ⟨kx, ky, kz, hk, hz, h0, h2, h1⟩
      refine ⟨(kx, ky, kz), hk, (), hz, ?_⟩
      rw [if_neg h0, h1, h2]

theorem Crystal.poyntingFluxEnd_eq_ok {c : Crystal N} {f : Crystal.Fluxes N} :
    c.poyntingFluxEnd = .ok f ↔ ∃ st src inc ref tr Wref Wtrans T R,
      c.stacked = some st ∧ c.source = some src ∧
      incident N src.te src.tm ⟨src.kp.1, src.kp.2, src.kzi⟩ = .ok inc ∧
      c.layers "Sref" = some ref ∧ ref.W = some Wref ∧ Wref.det ≠ 0 ∧
      c.layers "Strans" = some tr ∧ tr.W = some Wtrans ∧
      poyntingFluxes c.expansion ((Wtrans * st.Stot.s21) *ᵥ (Wref⁻¹ *ᵥ inc)) src.kp src.wavelength
        c.epsi c.epse = .ok T ∧
      poyntingFluxes c.expansion ((Wref * st.Stot.s11) *ᵥ (Wref⁻¹ *ᵥ inc)) src.kp src.wavelength
        c.epsi c.epsi = .ok R ∧ f = ⟨R.1, T.1, R.2, T.2⟩ := by
  simp only [Crystal.poyntingFluxEnd, bind_eq_ok, Crystal.asserted_eq_ok, Crystal.attr_eq_ok,
    Crystal.layer_eq_ok, pySome_eq_ok, npInv_eq_ok, pure, Except.pure, Except.ok.injEq]
  constructor
  · rintro ⟨st, hst, src, hsrc, inc, hinc, ref, href, Wr, hWr, iW, ⟨hd, rfl⟩, tr, htr, Wt, hWt, T, hT,
      R, hR, h⟩
    exact ⟨st, src, inc, ref, tr, Wr, Wt, T, R, hst, hsrc, hinc, href, hWr, hd, htr, hWt, hT, hR, h.symm⟩
  · rintro ⟨st, src, inc, ref, tr, Wr, Wt, T, R, hst, hsrc, hinc, href, hWr, hd, htr, hWt, hT, hR, h⟩
    exact ⟨st, hst, src, hsrc, inc, hinc, ref, href, Wr, hWr, _, ⟨hd, rfl⟩, tr, htr, Wt, hWt, T, hT,
      R, hR, h.symm⟩

/-- The fluxes of amplitudes in a medium of real permittivity, for a real source. -/
theorem poyntingFluxes_real {e : Expansion N} {c : Vec2 N} {kp : ℝ × ℝ} {wl : ℝ} (hwl : 0 < wl)
    {epsi epse : ℝ} {r : ℝ × (Fin N → ℝ)}
    (h : poyntingFluxes e c (↑kp.1, ↑kp.2) wl epsi epse = .ok r) :
    let x0 := epsi - (kp.1 / (2 * Real.pi / wl)) ^ 2 - (kp.2 / (2 * Real.pi / wl)) ^ 2
    let kx := orderKx e kp wl
    let ky := orderKy e kp wl
    (outerKz x0).re ≠ 0 ∧ (∀ i, epse - kx i ^ 2 - ky i ^ 2 ≠ 0) ∧
      (∀ i, r.2 i = (outerKz (epse - kx i ^ 2 - ky i ^ 2)).re / (outerKz x0).re *
        waveNorm kx ky (fun i => outerKz (epse - kx i ^ 2 - ky i ^ 2)) c i) ∧ r.1 = ∑ i, r.2 i := by
  intro x0 kx ky
  have hk0 : 0 < 2 * Real.pi / wl := by have := Real.pi_pos; positivity
  obtain ⟨-, kx', ky', kz', hk, hz, h0, h2, h1⟩ := poyntingFluxes_eq_ok.1 h
  obtain ⟨-, hx, hy, hkz⟩ := kVectors_eq_ok.1 hk
  simp only at hx hy hkz
  have hk0c : ((2 * Real.pi / wl : ℝ) : ℂ) ≠ 0 := by exact_mod_cast hk0.ne'
  have ekz : ∀ i, kz' i = outerKz (epse - kx i ^ 2 - ky i ^ 2) := by
    intro i
    rw [hkz]
    simp only [kzFromKplanar]
    rw [div_eq_iff hk0c, mul_comm (outerKz _), ← outerKz_mul_sq hk0, ← star_csqrt_ofReal]
    congr 2
    simp only [kx, ky, orderKx, orderKy]
    have : ((2 * Real.pi / wl : ℝ) : ℝ) ≠ 0 := hk0.ne'
    generalize 2 * Real.pi / wl = k at *
    have hkk : (k : ℂ) ≠ 0 := by exact_mod_cast this
    push_cast
    simp only [Complex.star_def, Complex.conj_ofReal]
    field_simp
  have ek0 : star (csqrt (((2 * Real.pi / wl : ℝ) : ℂ) ^ 2 * (epsi : ℂ) - (kp.1 : ℂ) ^ 2 - (kp.2 : ℂ) ^ 2)) /
      ((2 * Real.pi / wl : ℝ) : ℂ) = outerKz x0 := by
    rw [div_eq_iff hk0c, mul_comm (outerKz _), ← outerKz_mul_sq hk0, ← star_csqrt_ofReal]
    congr 2
    simp only [x0]
    have : ((2 * Real.pi / wl : ℝ) : ℝ) ≠ 0 := hk0.ne'
    generalize 2 * Real.pi / wl = k at *
    have hkk : (k : ℂ) ≠ 0 := by exact_mod_cast this
    push_cast
    field_simp
  simp only [ek0] at h0 h2
  refine ⟨h0, fun i hi => hz i ?_, fun i => ?_, h1⟩
  · rw [ekz, hi]; simp [outerKz]
  · rw [h2]
    simp only [ekz, waveNorm]
    have e1 : kx' i = (kx i : ℂ) := by rw [hx]; simp [kx, orderKx]
    have e2 : ky' i = (ky i : ℂ) := by rw [hy]; simp [ky, orderKy]
    rw [e1, e2]


/-- What the flux calculation of a solved standard device at a real source amounts to. -/
theorem energy_balance {lib : NumLib} {order : List String} {c c' : Crystal N} {stack : List String}
    {mask : List Bool} {lr lt : Layer N} {Ls : List (Layer N)} {er et : ℝ}
    (he : EigContract (lib.eig N)) (hcen : Centered c.expansion)
    (hd : StandardDevice c stack mask lr Ls lt er et) (hi : c.epsi = er) (hie : c.epse = et)
    (ho : SetOrder ("Sref" :: (stack ++ ["Strans"])) order) (hsolve : c.solve lib order = .ok c')
    {src : Source} (hsrc : c.source = some src) {kp : ℝ × ℝ} (hkp : src.kp = (↑kp.1, ↑kp.2))
    (hwl : 0 < src.wavelength) {f : Crystal.Fluxes N} (hf : c'.poyntingFluxEnd = .ok f) :
    ∃ (inc : Vec2 N) (i0 : Fin N) (Ms : List (Mat2 N × Mat2 N × ℝ)) (p q : Port (Fin N ⊕ Fin N)),
      let kx := orderKx c.expansion kp src.wavelength
      let ky := orderKy c.expansion kp src.wavelength
      (i0 : ℕ) = (N - 1) / 2 ∧ kx i0 = kp.1 / (2 * Real.pi / src.wavelength) ∧
      ky i0 = kp.2 / (2 * Real.pi / src.wavelength) ∧
      incident N src.te src.tm ⟨src.kp.1, src.kp.2, src.kzi⟩ = .ok inc ∧
      LayerEquations lib.jv1 c.expansion kx ky (2 * Real.pi / src.wavelength) Ls Ms ∧
      p.fwd = inc ∧ q.bwd = 0 ∧ MaxwellChain Ms (outerField kx ky er p) (outerField kx ky et q) ∧
      0 < er - kx i0 ^ 2 - ky i0 ^ 2 ∧
      fluxZ (outerField kx ky er p) = Real.sqrt (er - kx i0 ^ 2 - ky i0 ^ 2) *
        (waveNorm kx ky (fun i => outerKz (er - kx i ^ 2 - ky i ^ 2)) inc i0 - f.R) ∧
      fluxZ (outerField kx ky et q) = Real.sqrt (er - kx i0 ^ 2 - ky i0 ^ 2) * f.T := by
  obtain ⟨src', kxc, kyc, W0, V0, rr, rs, rt, st, h⟩ := solvedDevice hd ho hsolve
  have hs' := h.source
  rw [hsrc, Option.some.injEq] at hs'
  subst hs'
  obtain ⟨rfl, rfl⟩ := h.real hkp
  have hlay : List.Forall₂ (fun (_ : String) (_ : Layer N) => True) stack Ls :=
    hd.layers.imp fun _ _ _ => trivial
  have hfc := h.fieldChain hd.mask_len hlay
  obtain ⟨Ms, hMs, hMF⟩ := h.maxwell he
  obtain ⟨hgr, hWr, -, hor⟩ := halfSpaceModes_outer h.ref_modes
  obtain ⟨hgt, hWt, -, hot⟩ := halfSpaceModes_outer h.trans_modes
  set kx := orderKx c.expansion kp src.wavelength with hkx
  set ky := orderKy c.expansion kp src.wavelength with hky
  obtain ⟨st', src', inc, ref, tr, Wref, Wtrans, T, R, h1, h2, h3, h4, h5, h6, h7, h8, hT, hR, rfl⟩ :=
    Crystal.poyntingFluxEnd_eq_ok.1 hf
  have hst : c'.stacked = some st := by rw [h.rest']
  have hcs : c'.source = some src := by rw [h.rest']; exact hsrc
  have hce : c'.expansion = c.expansion := by rw [h.rest']
  have hci : c'.epsi = (er : ℂ) := by rw [h.rest']; exact hi
  have hcx : c'.epse = (et : ℂ) := by rw [h.rest']; exact hie
  rw [hst, Option.some.injEq] at h1
  rw [hcs, Option.some.injEq] at h2
  subst h1 h2
  rw [h.ref', Option.some.injEq] at h4
  rw [h.trans', Option.some.injEq] at h7
  subst h4 h7
  simp only [AnyLayer.W, Layer.store, hd.ref_fields, hd.trans_fields, if_true, Option.some.injEq] at h5 h8
  rw [hWr] at h5
  rw [hWt] at h8
  subst h5 h8
  rw [hce, hci, hcx, hkp, Matrix.one_mul, inv_one, one_mulVec] at hT
  rw [hce, hci, hkp, Matrix.one_mul, inv_one, one_mulVec] at hR
  obtain ⟨hN, hpn, aTE, aTM, hpol, hinc⟩ := incident_eq_ok.1 h3
  have hlt : (N - 1) / 2 < N := by omega
  let i0 : Fin N := ⟨(N - 1) / 2, hlt⟩
  have hg0 := hcen.2 i0 rfl
  obtain ⟨hz0, -, hTi, hTt⟩ := poyntingFluxes_real hwl hT
  obtain ⟨-, -, hRi, hRt⟩ := poyntingFluxes_real hwl hR
  have hkx0 : kx i0 = kp.1 / (2 * Real.pi / src.wavelength) := by simp [hkx, orderKx, hg0]
  have hky0 : ky i0 = kp.2 / (2 * Real.pi / src.wavelength) := by simp [hky, orderKy, hg0]
  rw [← hkx0, ← hky0] at hz0 hTi hRi
  obtain ⟨hpos, hz1⟩ := outerKz_re_ne_zero hz0
  have hsq : 0 < Real.sqrt (er - kx i0 ^ 2 - ky i0 ^ 2) := Real.sqrt_pos.2 hpos
  simp only [hz1, Complex.ofReal_re] at hTi hRi
  have hother : ∀ i, i ≠ i0 → inc (.inl i) = 0 ∧ inc (.inr i) = 0 := by
    intro i hne
    have : ¬ (i : ℕ) = (N - 1) / 2 := fun h => hne (Fin.ext h)
    rw [hinc]; simp [this]
  let p : Port (Fin N ⊕ Fin N) := ⟨inc, st.Stot.s11 *ᵥ inc⟩
  let q : Port (Fin N ⊕ Fin N) := ⟨st.Stot.s21 *ᵥ inc, 0⟩
  have hsc : Scatters st.Stot p q := by simp [Scatters, p, q]
  refine ⟨inc, i0, Ms, p, q, rfl, hkx0, hky0, h3, hMs, rfl, rfl, ?_, hpos, ?_, ?_⟩
  · rw [← hor, ← hot]
    exact (hMF _ _).1 ((hfc p q).1 hsc)
  · rw [fluxZ_outer hgr]
    · simp only [mul_sub, Finset.sum_sub_distrib]
      congr 1
      · rw [Finset.sum_eq_single i0]
        · rw [hz1, Complex.ofReal_re]
        · intro i _ hne
          simp [p, waveNorm, (hother i hne).1, (hother i hne).2]
        · simp
      · rw [hRt, Finset.mul_sum]
        refine Finset.sum_congr rfl fun i _ => ?_
        rw [hRi i]
        simp only [p]
        field_simp
        rfl
    · intro i hneg
      left
      exact hother i fun h => by rw [h] at hneg; linarith
  · rw [fluxZ_outer hgt]
    · simp only
      rw [hTt, Finset.mul_sum]
      refine Finset.sum_congr rfl fun i _ => ?_
      rw [hTi i]
      have : waveNorm kx ky (fun i => outerKz (et - kx i ^ 2 - ky i ^ 2)) q.bwd i = 0 := by
        simp [q, waveNorm]
      rw [this, sub_zero]
      field_simp
      rfl
    · intro i _
      right
      simp [q]


/-- What a user's `set_device` and `set_source` lead to. -/
theorem fresh_standard {c c1 c2 : Crystal N} {stack : List String} {m : Bool ⊕ List Bool}
    {Ls : List (Layer N)} {er et : ℂ} {wl : ℝ} {te tm : ℂ} {theta phi : ℝ} {kpo : Option (ℂ × ℂ)}
    (hc : FreshDevice c stack m Ls er et) (h1 : c.setDevice stack m = .ok c1)
    (h2 : c1.setSource wl te tm theta phi kpo = .ok c2) :
    ∃ lr lt Ls' k, StandardDevice c2 stack (Crystal.maskList stack m) lr Ls' lt er et ∧
      List.Forall₂ (fun l l' => l'.form = l.form ∧ l'.depth = l.depth) Ls Ls' ∧
      c2.expansion = c.expansion ∧ c2.epsi = er ∧ c2.epse = et ∧ wl ≠ 0 ∧
      Crystal.orDefault kpo (computeKplanar er wl theta phi) = .ok k ∧
      c2.source = some ⟨te, tm, theta, phi, wl, k,
        star (csqrt (((2 * Real.pi / wl : ℝ) : ℂ) ^ 2 * er - k.1 ^ 2 - k.2 ^ 2))⟩ ∧
      Ls' = List.zipWith (fun x l => { l with
        fields := l.fields || Crystal.requested x (stack.zip (Crystal.maskList stack m)) }) stack Ls := by
  have hm : (Crystal.maskList stack m).length = stack.length := by
    cases m with
    | inl b => simp [Crystal.maskList]
    | inr l => exact hc.mask l rfl
  obtain ⟨c1', hset, hd, hexp, -, hi, hie⟩ :=
    Crystal.setDevice_standard hc.void hc.noRef hc.noTrans hc.layers hm
  rw [h1, Except.ok.injEq] at hset
  subst hset
  obtain ⟨hwl, k, hk, rfl⟩ := Crystal.setSource_eq_ok.1 h2
  rw [hi, hc.epsi] at hk
  rw [hc.epsi, hc.epse] at hd
  obtain ⟨a1, a2, a3, a4, a5, a6, a7, a8, a9, a10, a11, a12, a13, a14, a15, a16⟩ := hd
  refine ⟨_, _, _, k, ⟨a1, a2, a3, a4, a5, a6, a7, a8, a9, a10, a11, a12, a13, a14, a15, a16⟩, ?_, hexp,
    hi.trans hc.epsi, hie.trans hc.epse, hwl, hk, ?_, rfl⟩
  · have := hc.layers
    generalize Crystal.maskList stack m = fm
    generalize stack.zip fm = z
    clear * - this
    induction this with
    | nil => exact .nil
    | cons _ _ ih => exact .cons ⟨rfl, rfl⟩ ih
  · rw [hi, hc.epsi]

theorem layerEquations_congr {jv1 : ℝ → ℝ} {e : Expansion N} {kx ky : Fin N → ℝ} {k0 : ℝ}
    {Ls Ls' : List (Layer N)} {Ms : List (Mat2 N × Mat2 N × ℝ)}
    (h : List.Forall₂ (fun l l' => l'.form = l.form ∧ l'.depth = l.depth) Ls Ls')
    (hM : LayerEquations jv1 e kx ky k0 Ls' Ms) : LayerEquations jv1 e kx ky k0 Ls Ms := by
  unfold LayerEquations at *
  induction h generalizing Ms with
  | nil => exact hM
  | cons h1 _ ih =>
    cases hM with
    | cons a b =>
      rw [h1.1, h1.2] at a
      exact .cons a (ih b)


namespace Crystal

theorem solveLayers_source {lib : NumLib} {kp : ℂ × ℂ} {wl : ℝ} (s : Option Source) :
    ∀ (order : List String) (c : Crystal N),
    solveLayers lib kp wl { c with source := s } order =
      (solveLayers lib kp wl c order).map fun x => { x with source := s } := by
  intro order
  induction order with
  | nil => intro c; rfl
  | cons x rest ih =>
    intro c
    simp only [solveLayers]
    have : layer { c with source := s } x = layer c x := rfl
    rw [this]
    cases c.layer x with
    | error e => rfl
    | ok l =>
      simp only [ok_bind]
      cases l.solve lib kp wl with
      | error e => rfl
      | ok l' =>
        simp only [ok_bind]
        exact ih (c.setLayer x l')

/-- `solve` reads the wave vector and wavelength of the source, and nothing else. -/
theorem solve_source {lib : NumLib} {order : List String} {s1 s2 : Source} (c : Crystal N)
    (hk : s2.kp = s1.kp) (hw : s2.wavelength = s1.wavelength) :
    solve lib order { c with source := some s2 } =
      (solve lib order { c with source := some s1 }).map fun x => { x with source := some s2 } := by
  simp only [solve, asserted, ok_bind, hk, hw]
  cases attr c.globalStacking with
  | error e => rfl
  | ok names =>
    simp only [ok_bind]
    rw [solveLayers_source (some s2) order c, solveLayers_source (some s1) order c]
    cases solveLayers lib s1.kp s1.wavelength c order with
    | error e => rfl
    | ok c1 =>
      simp only [Except.map, ok_bind]
      have : ∀ s : Option Source, layer { c1 with source := s } = layer c1 := fun s => rfl
      rw [this (some s2), this (some s1)]
      cases names.mapM c1.layer with
      | error e => rfl
      | ok ls =>
        simp only [ok_bind]
        cases positions c.void (ls.map AnyLayer.depth) with
        | error e => rfl
        | ok pos =>
          simp only [ok_bind]
          cases ls.mapM (fun l => pySome l.S) with
          | error e => rfl
          | ok Ss =>
            simp only [ok_bind]
            cases stackLayers Ss c1.retainMask with
            | error e => rfl
            | ok st => rfl

theorem solve_keeps_source {lib : NumLib} {order : List String} {c c' : Crystal N}
    (h : c.solve lib order = .ok c') : c'.source = c.source := by
  cases hs : c.source with
  | none => simp [solve, hs, asserted, error_bind] at h
  | some s =>
    have := solve_source (lib := lib) (order := order) (s1 := s) (s2 := s) c rfl rfl
    have hc : { c with source := some s } = c := by rw [← hs]
    rw [hc, h] at this
    simp only [Except.map, Except.ok.injEq] at this
    rw [this]

theorem incident_scale (N : ℕ) (te tm : ℂ) (k : C3) {a : ℂ} (ha : a ≠ 0) :
    incident N (a * te) (a * tm) k =
      (incident N te tm k).map fun v => (a / (‖a‖ : ℂ)) • v := by
  have hn : ‖a‖ ≠ 0 := norm_ne_zero_iff.2 ha
  unfold incident polVector
  rw [polNorm_smul]
  by_cases hp : polNorm te tm = 0
  · simp [hp, throw, throwThe, MonadExceptOf.throw, error_bind, Except.map]
  · have hp' : ‖a‖ * polNorm te tm ≠ 0 := mul_ne_zero hn hp
    simp only [hp, hp', if_false]
    cases polarisations k with
    | error e => rfl
    | ok q =>
      simp only [ok_bind, pure, Except.pure]
      by_cases hN : 0 < N
      · rw [pyCheck_ok hN]
        simp only [ok_bind, Except.map, Except.ok.injEq]
        have hnc : (‖a‖ : ℂ) ≠ 0 := by exact_mod_cast hn
        have hpc : (polNorm te tm : ℂ) ≠ 0 := by exact_mod_cast hp
        funext i
        rcases i with i | i <;>
        · simp only [Sum.elim_inl, Sum.elim_inr, Pi.smul_apply, smul_eq_mul, C3.add, C3.smul]
          push_cast
          field_simp
      · rw [pyCheck_err hN]; rfl

theorem poyntingFluxes_phase {e : Expansion N} {v : Vec2 N} {kp : ℂ × ℂ} {wl : ℝ} {p q : ℂ} {a : ℂ}
    (ha : ‖a‖ = 1) : poyntingFluxes e (a • v) kp wl p q = poyntingFluxes e v kp wl p q := by
  unfold poyntingFluxes
  have h1 : ∀ z : ℂ, ‖a * z‖ = ‖z‖ := fun z => by rw [norm_mul, ha, one_mul]
  have h2 : ∀ k k' z z' w : ℂ, -(k * (a * z) + k' * (a * z')) / w = a * (-(k * z + k' * z') / w) := by
    intro k k' z z' w; ring
  simp only [Pi.smul_apply, smul_eq_mul, h2, h1]

theorem poyntingFluxEnd_scale {c : Crystal N} {s : Source} (hs : c.source = some s) {a : ℂ}
    (ha : a ≠ 0) :
    poyntingFluxEnd { c with source := some { s with te := a * s.te, tm := a * s.tm } } =
      c.poyntingFluxEnd := by
  have hph : ‖a / (‖a‖ : ℂ)‖ = 1 := by
    rw [norm_div, Complex.norm_real, norm_norm, div_self (norm_ne_zero_iff.2 ha)]
  unfold poyntingFluxEnd
  simp only [hs, attr, ok_bind]
  cases asserted c.stacked with
  | error e => rfl
  | ok st =>
    simp only [ok_bind]
    rw [incident_scale _ _ _ _ ha]
    cases incident N s.te s.tm ⟨s.kp.1, s.kp.2, s.kzi⟩ with
    | error e => rfl
    | ok inc =>
      simp only [Except.map, ok_bind]
      have : ∀ x, layer { c with source := some { s with te := a * s.te, tm := a * s.tm } } x = layer c x :=
        fun x => rfl
      simp only [this]
      refine bind_congr fun ref => ?_
      refine bind_congr fun Wref => ?_
      refine bind_congr fun iW => ?_
      refine bind_congr fun tr => ?_
      refine bind_congr fun Wt => ?_
      rw [mulVec_smul, mulVec_smul, mulVec_smul, poyntingFluxes_phase hph, poyntingFluxes_phase hph]

end Crystal

end Khepri
