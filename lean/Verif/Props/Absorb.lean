import Verif.Lemmas.AbsorbDevice
import Verif.Lemmas.ExampleAbsorb

/-!
# C94: absorbing devices can always be solved
-/

namespace Khepri

open Matrix

variable {N : ℕ}

/-- **C94.** Half spaces of positive permittivity can be solved, whatever the wave vector, except where an order is
exactly at grazing incidence in vacuum or in the medium. -/
theorem C94_half_spaces (lib : NumLib) {e : Expansion N} {kp : ℝ × ℝ} {wl : ℝ} (hwl : 0 < wl)
    (hg : ∀ i, 1 - orderKx e kp wl i ^ 2 - orderKy e kp wl i ^ 2 ≠ 0) {er : ℝ} (her : 0 < er)
    (hr : ∀ i, er - orderKx e kp wl i ^ 2 - orderKy e kp wl i ^ 2 ≠ 0) :
    (∃ r, (Form.halfInc er).solve lib e 0 ((kp.1 : ℂ), (kp.2 : ℂ)) wl = .ok r) ∧
    ∃ r, (Form.halfTrn er).solve lib e 0 ((kp.1 : ℂ), (kp.2 : ℂ)) wl = .ok r :=
  half_solves lib hwl hg her hr

/-- **C94.** A layer that absorbs everywhere can be solved at every positive depth, whatever the wave vector, except
where an order is exactly at grazing incidence in vacuum, provided the eigensolver returns independent eigenvectors. -/
theorem C94_layer {lib : NumLib} (he : EigContract (lib.eig N)) (hN : 0 < N) {e : Expansion N} {kp : ℝ × ℝ}
    {wl : ℝ} (hwl : 0 < wl) (hg : ∀ i, 1 - orderKx e kp wl i ^ 2 - orderKy e kp wl i ^ 2 ≠ 0) {form : Form}
    (hf : form.strictlyAbsorbing lib.jv1 e)
    (hdiag : form.diagonalised lib e (orderKx e kp wl) (orderKy e kp wl)) {d : ℝ} (hd : 0 < d) :
    ∃ r, form.solve lib e d ((kp.1 : ℂ), (kp.2 : ℂ)) wl = .ok r :=
  strict_solve he hN hwl hg hf hdiag hd

section
variable {lib : NumLib} {order : List String} {c c1 c2 : Crystal N} {stack : List String}
  {m : Bool ⊕ List Bool} {Ls : List (Layer N)} {er et : ℝ} {wl : ℝ} {te tm : ℂ} {theta phi : ℝ}
  {kpo : Option (ℂ × ℂ)}

/-- **C94.** A device of layers that all absorb, between media of positive permittivity, can be solved: no layer and no
cascade of layers meets a singular matrix. -/
theorem C94_device (he : EigContract (lib.eig N)) (hb : Built c.expansion)
    (hc : FreshDevice c stack m Ls er et) (h1 : c.setDevice stack m = .ok c1)
    (h2 : c1.setSource wl te tm theta phi kpo = .ok c2)
    (ho : SetOrder ("Sref" :: (stack ++ ["Strans"])) order) (hwl : 0 < wl) (her : 0 < er) (het : 0 < et)
    {src : Source} (hs : c2.source = some src) {kp : ℝ × ℝ} (hkp : src.kp = (↑kp.1, ↑kp.2))
    (hg : ∀ i, 1 - orderKx c.expansion kp wl i ^ 2 - orderKy c.expansion kp wl i ^ 2 ≠ 0)
    (hgr : ∀ i, er - orderKx c.expansion kp wl i ^ 2 - orderKy c.expansion kp wl i ^ 2 ≠ 0)
    (hgt : ∀ i, et - orderKx c.expansion kp wl i ^ 2 - orderKy c.expansion kp wl i ^ 2 ≠ 0)
    (hL : ∀ l ∈ Ls, 0 < l.depth ∧ l.form.strictlyAbsorbing lib.jv1 c.expansion ∧
      l.form.diagonalised lib c.expansion (orderKx c.expansion kp wl) (orderKy c.expansion kp wl)) :
    ∃ c3, c2.solve lib order = .ok c3 := by
  obtain ⟨lr, lt, Ls', k, hd, hLL, hexp, hi, hie, hwl', hk, hsrc, -⟩ := fresh_standard hc h1 h2
  have hN : 0 < N := by
    obtain ⟨hodd, -⟩ := C25_specular_middle hb
    exact hodd.pos
  rw [hsrc, Option.some.injEq] at hs
  subst hs
  simp only at hkp
  subst hkp
  have hL' : ∀ l ∈ Ls', l.form.isLayer ∧ 0 < l.depth ∧ l.form.strictlyAbsorbing lib.jv1 c.expansion ∧
      l.form.diagonalised lib c.expansion (orderKx c.expansion kp wl) (orderKy c.expansion kp wl) := by
    intro l' hl'
    obtain ⟨l, hl, e1, e2⟩ : ∃ l ∈ Ls, l'.form = l.form ∧ l'.depth = l.depth := by
      clear hL hd hc h1 h2
      induction hLL with
      | nil => simp at hl'
      | cons h _ ih =>
        rcases List.mem_cons.1 hl' with rfl | hl'
        · exact ⟨_, by simp, h⟩
        · obtain ⟨l, hl, h'⟩ := ih hl'
          exact ⟨l, by simp [hl], h'⟩
    rw [e1, e2]
    refine ⟨?_, hL l hl⟩
    have := (hL l hl).2.1
    revert this
    cases l.form <;> simp [Form.strictlyAbsorbing, Form.isLayer]
  obtain ⟨rr, hrr⟩ := (half_solves lib hwl hg her hgr).1
  obtain ⟨rt, hrt⟩ := (half_solves lib hwl hg het hgt).2
  obtain ⟨rs, hrs⟩ : ∃ rs, List.Forall₂ (fun (l : Layer N) r =>
      l.form.solve lib c.expansion l.depth ((kp.1 : ℂ), (kp.2 : ℂ)) wl = .ok r ∧
      TakesPower (gapFlux (orderKx c.expansion kp wl) (orderKy c.expansion kp wl)) r.S) Ls' rs := by
    clear hLL hd
    induction Ls' with
    | nil => exact ⟨[], .nil⟩
    | cons l Ls' ih =>
      obtain ⟨rs, hrs⟩ := ih fun l hl => hL' l (by simp [hl])
      obtain ⟨a1, a2, a3, a4⟩ := hL' l (by simp)
      obtain ⟨r, hr⟩ := strict_solve he hN hwl hg a3 a4 a2
      exact ⟨r :: rs, .cons ⟨hr, solved_takesPower he hN hwl a1 a3 a2 hr⟩ hrs⟩
  obtain ⟨kz, hkv⟩ := real_kVectors c.expansion hwl.ne' kp
  obtain ⟨V0, h0⟩ := gap_exists hg
  obtain ⟨kx, ky, kz1, W1, V1, hk1, g1, -, mr, sr, -⟩ := Form.solve_halfInc hrr
  rw [hkv, Except.ok.injEq, Prod.mk.injEq, Prod.mk.injEq] at hk1
  obtain ⟨rfl, rfl, -⟩ := hk1
  rw [h0, Except.ok.injEq, Prod.mk.injEq] at g1
  obtain ⟨rfl, rfl⟩ := g1
  obtain ⟨kx, ky, kz1, W1, V1, hk1, g1, -, mt, stt, -⟩ := Form.solve_halfTrn hrt
  rw [hkv, Except.ok.injEq, Prod.mk.injEq, Prod.mk.injEq] at hk1
  obtain ⟨rfl, rfl, -⟩ := hk1
  rw [h0, Except.ok.injEq, Prod.mk.injEq] at g1
  obtain ⟨rfl, rfl⟩ := g1
  have hTP : ∀ S ∈ rs.map Solved.S,
      TakesPower (gapFlux (orderKx c.expansion kp wl) (orderKy c.expansion kp wl)) S := by
    intro S hS
    obtain ⟨r, hr, rfl⟩ := List.mem_map.1 hS
    clear hLL hd hL' hS
    induction hrs with
    | nil => simp at hr
    | cons h _ ih =>
      rcases List.mem_cons.1 hr with rfl | hr
      · exact h.2
      · exact ih hr
  obtain ⟨st, hst⟩ := stackLayers_strict (mask := true :: (Crystal.maskList stack m ++ [true]))
    (fun y => fluxZ_outer_bwd (p := ⟨0, y⟩) hg rfl) (fun x => fluxZ_outer_fwd (p := ⟨x, 0⟩) hg rfl)
    (reflection_passive h0 mr sr) (transmission_passive h0 mt stt) hTP
    (junction_passive her het h0 mr mt sr stt) (by
      simp [hd.mask_len, hd.layers.length_eq, hrs.length_eq])
  obtain ⟨c3, h3, -⟩ := hd.solve_exists (lib := lib) ho hsrc (by rw [hexp]; exact hrr)
    (by rw [hexp]; exact hrs.imp fun _ _ h => h.1) (by rw [hexp]; exact hrt) hst
  exact ⟨c3, h3⟩

/-- **C94.** The powers of a solved device are always available: `poynting_flux_end` returns when the source is not dark
and its wave propagates in the incidence medium. -/
theorem C94_powers {c3 : Crystal N} (hb : Built c.expansion)
    (hc : FreshDevice c stack m Ls er et) (h1 : c.setDevice stack m = .ok c1)
    (h2 : c1.setSource wl te tm theta phi kpo = .ok c2)
    (ho : SetOrder ("Sref" :: (stack ++ ["Strans"])) order) (h3 : c2.solve lib order = .ok c3) (hwl : 0 < wl)
    {src : Source} (hs : c2.source = some src) {kp : ℝ × ℝ} (hkp : src.kp = (↑kp.1, ↑kp.2))
    (hp : 0 < er - (kp.1 / (2 * Real.pi / wl)) ^ 2 - (kp.2 / (2 * Real.pi / wl)) ^ 2)
    (hpol : (te, tm) ≠ (0, 0)) : ∃ f, c3.poyntingFluxEnd = .ok f := by
  obtain ⟨lr, lt, Ls', k, hd, hLL, hexp, hi, hie, hwl', hk, hsrc, -⟩ := fresh_standard hc h1 h2
  have hN : 0 < N := by
    obtain ⟨hodd, -⟩ := C25_specular_middle hb
    exact hodd.pos
  rw [hsrc, Option.some.injEq] at hs
  subst hs
  simp only at hkp
  subst hkp
  obtain ⟨src', kxc, kyc, W0, V0, rr, rs, rt, st, h⟩ := solvedDevice hd ho h3
  have hs' := h.source
  rw [hsrc, Option.some.injEq] at hs'
  subst hs'
  obtain ⟨rfl, rfl⟩ := h.real (kp := kp) rfl
  simp only at h
  obtain ⟨hgr, hWr, -, -⟩ := halfSpaceModes_outer h.ref_modes
  obtain ⟨hgt, hWt, -, -⟩ := halfSpaceModes_outer h.trans_modes
  have hk0 : 0 < 2 * Real.pi / wl := by have := Real.pi_pos; positivity
  have hkc : ((2 * Real.pi / wl : ℝ) : ℂ) ≠ 0 := by exact_mod_cast hk0.ne'
  have hkz : star (csqrt (((2 * Real.pi / wl : ℝ) : ℂ) ^ 2 * er - (kp.1 : ℂ) ^ 2 - (kp.2 : ℂ) ^ 2)) =
      ((2 * Real.pi / wl * Real.sqrt (er - (kp.1 / (2 * Real.pi / wl)) ^ 2 - (kp.2 / (2 * Real.pi / wl)) ^ 2) : ℝ) : ℂ) := by
    rw [Complex.ofReal_mul, ← outerKz_pos hp, ← outerKz_mul_sq hk0, ← star_csqrt_ofReal]
    congr 2
    generalize 2 * Real.pi / wl = k0 at *
    push_cast
    field_simp
  obtain ⟨inc, hinc⟩ := C17_returns hN hpol kp.1 kp.2
    (2 * Real.pi / wl * Real.sqrt (er - (kp.1 / (2 * Real.pi / wl)) ^ 2 - (kp.2 / (2 * Real.pi / wl)) ^ 2))
  rw [← hkz] at hinc
  obtain ⟨T, hT⟩ := media_flux_exists c2.expansion hwl kp (et := et) hgt hp
    ((1 * st.Stot.s21) *ᵥ ((1 : Mat2 N)⁻¹ *ᵥ inc))
  obtain ⟨R, hR⟩ := media_flux_exists c2.expansion hwl kp (et := er) hgr hp
    ((1 * st.Stot.s11) *ᵥ ((1 : Mat2 N)⁻¹ *ᵥ inc))
  have hst : c3.stacked = some st := by rw [h.rest']
  have hcs : c3.source = c2.source := by rw [h.rest']
  rw [hsrc] at hcs
  have hce : c3.expansion = c2.expansion := by rw [h.rest']
  have hci : c3.epsi = (er : ℂ) := by rw [h.rest']; exact hi
  have hcx : c3.epse = (et : ℂ) := by rw [h.rest']; exact hie
  refine ⟨_, Crystal.poyntingFluxEnd_eq_ok.2
    ⟨st, _, inc, _, _, 1, 1, T, R, hst, hcs, hinc, h.ref', ?_, by simp, h.trans', ?_, ?_, ?_, rfl⟩⟩
  · simp [AnyLayer.W, Layer.store, hWr, hd.ref_fields]
  · simp [AnyLayer.W, Layer.store, hWt, hd.trans_fields]
  · rw [hce, hci, hcx]; exact hT
  · rw [hce, hci]; exact hR

/-- **C94.** Power is lost as soon as one layer of positive depth absorbs everywhere and no layer amplifies:
`R + T < 1`. -/
theorem C94_power_lost {c3 : Crystal N} (he : EigContract (lib.eig N)) (hb : Built c.expansion)
    (hc : FreshDevice c stack m Ls er et)
    (hL : ∀ l ∈ Ls, 0 ≤ l.depth ∧ l.form.absorbing lib.jv1 c.expansion)
    (hl : ∃ l ∈ Ls, 0 < l.depth ∧ l.form.strictlyAbsorbing lib.jv1 c.expansion)
    (h1 : c.setDevice stack m = .ok c1) (h2 : c1.setSource wl te tm theta phi kpo = .ok c2)
    (ho : SetOrder ("Sref" :: (stack ++ ["Strans"])) order) (h3 : c2.solve lib order = .ok c3)
    (hwl : 0 < wl) {src : Source} (hs : c2.source = some src) {kp : ℝ × ℝ}
    (hkp : src.kp = (↑kp.1, ↑kp.2))
    (hcut : (kp.1 = 0 ∧ kp.2 = 0) ∨ (1 / 10 ^ 8) ^ 2 ≤ kp.1 ^ 2 + kp.2 ^ 2)
    {f : Crystal.Fluxes N} (hf : c3.poyntingFluxEnd = .ok f) : f.R + f.T < 1 := by
  obtain ⟨lr, lt, Ls', k, hd, hLL, hexp, hi, hie, hwl', hk, hsrc, -⟩ := fresh_standard hc h1 h2
  obtain ⟨hodd, hmid⟩ := C25_specular_middle hb
  have hN : 0 < N := hodd.pos
  have hcen : Centered c2.expansion := by
    rw [hexp]
    exact ⟨Nat.odd_iff.1 hodd, fun i hi => hmid i (by rw [Nat.odd_iff] at hodd; omega)⟩
  rw [hsrc, Option.some.injEq] at hs
  subst hs
  simp only at hkp
  subst hkp
  have hk0 : 0 < 2 * Real.pi / wl := by have := Real.pi_pos; positivity
  obtain ⟨src', kxc, kyc, W0, V0, rr, rs, rt, st, hsd⟩ := solvedDevice hd ho h3
  have hs' := hsd.source
  rw [hsrc, Option.some.injEq] at hs'
  subst hs'
  obtain ⟨rfl, rfl⟩ := hsd.real (kp := kp) rfl
  obtain ⟨hgr, -, -, hor⟩ := halfSpaceModes_outer hsd.ref_modes
  obtain ⟨dW, dV⟩ := halfSpaceModes_det hsd.er_ne hsd.ref_modes
  obtain ⟨inc, i0, Ms, p, q, hi0, hx, hy, hinc, hM, hp, hq, hch, hpos, hF, hG⟩ :=
    energy_balance he hcen hd hi hie ho h3 hsrc rfl hwl hf
  simp only at hx hy hM hch hpos hF hG hinc hor
  rw [incident_waveNorm hk0 hi0 hx hy hpos rfl hcut hinc] at hF
  by_contra hge
  rw [not_lt] at hge
  have hM' := layerEquations_congr hLL hM
  rw [hexp] at hM'
  have hz := fluxZ_chain_strict hM'
    (fun l hl' => ⟨mul_nonneg (hL l hl').1 hk0.le, fun C hC => absorbing_perm (hL l hl').2 hC⟩)
    (by
      obtain ⟨l, hl', h0, hst⟩ := hl
      exact ⟨l, hl', mul_pos h0 hk0, fun C hC => strict_perm hN hst hC⟩)
    hch (by rw [hF, hG]; exact mul_le_mul_of_nonneg_left (by linarith) (Real.sqrt_nonneg _))
  have hp0 : p = ⟨0, 0⟩ := by
    refine fieldOf_injective dW dV ?_
    rw [hor]
    apply Tang.ext
    · rw [hz.1]; simp [fieldOf]
    · rw [hz.2]; simp [fieldOf]
  have := incident_waveNorm hk0 hi0 hx hy hpos rfl hcut hinc
  rw [← hp, hp0] at this
  simp [waveNorm] at this

end

section Examples

example : ∃ r, (Form.halfInc ((9 / 4 : ℝ) : ℂ)).solve exampleLib exampleExpansion 0 ((absorbKp.1 : ℂ), (absorbKp.2 : ℂ)) 1 =
    .ok r :=
  (C94_half_spaces exampleLib one_pos (absorb_grazing (by norm_num)) (by norm_num) (absorb_grazing (by norm_num))).1

example : ∃ r, (Form.fft absorbPix).solve exampleLib exampleExpansion (1 / 2) ((absorbKp.1 : ℂ), (absorbKp.2 : ℂ)) 1 =
    .ok r := by
  have h := (absorb_strict { expansion := exampleExpansion, form := .fft absorbPix, depth := 1 / 2 }
    (by simp [absorbLayers])).2
  exact C94_layer (exampleLib_contract 1) one_pos one_pos (absorb_grazing (by norm_num)) h
    (example_diagonalised h _ _) (by norm_num)

/-- Two absorbing layers, one of them a pixmap of two media, between glass and vacuum at oblique incidence: the
device is solved, its powers are available, and power is lost. -/
example (b : Bool) : ∃ c1 c2 c3 f, absorbCrystal.setDevice ["a", "b"] (.inl b) = .ok c1 ∧
    c1.setSource 1 1 0 0 0 (some ((absorbKp.1 : ℂ), (absorbKp.2 : ℂ))) = .ok c2 ∧
    c2.solve exampleLib ["Sref", "a", "b", "Strans"] = .ok c3 ∧ c3.poyntingFluxEnd = .ok f ∧ f.R + f.T < 1 := by
  obtain ⟨c1, c2, src, h1, h2, hs, hk⟩ := absorb_source 1 0 b
  have h0 : (2 * Real.pi * (1 / 2) : ℝ) / (2 * Real.pi / 1) = 1 / 2 := by
    have := Real.pi_pos
    field_simp
  obtain ⟨c3, h3⟩ := C94_device (exampleLib_contract 1) exampleExpansion_built (absorb_fresh b) h1 h2 absorb_order
    one_pos (by norm_num) one_pos hs hk (absorb_grazing (by norm_num)) (absorb_grazing (by norm_num))
    (absorb_grazing (by norm_num))
    fun l hl => ⟨(absorb_strict l hl).1, (absorb_strict l hl).2, example_diagonalised (absorb_strict l hl).2 _ _⟩
  obtain ⟨f, hf⟩ := C94_powers exampleExpansion_built (absorb_fresh b) h1 h2 absorb_order h3 one_pos hs hk
    (by simp only [absorbKp, h0]; norm_num) (by simp)
  refine ⟨c1, c2, c3, f, h1, h2, h3, hf, ?_⟩
  refine C94_power_lost (exampleLib_contract 1) exampleExpansion_built (absorb_fresh b) ?_
    ⟨_, List.mem_cons_self, absorb_strict _ List.mem_cons_self⟩ h1 h2 absorb_order h3 one_pos hs hk ?_ hf
  · intro l hl
    refine ⟨(absorb_strict l hl).1.le, ?_⟩
    simp only [absorbLayers, List.mem_cons, List.not_mem_nil, or_false] at hl
    rcases hl with rfl | rfl
    · intro x y
      simp only [absorbPix]
      split_ifs <;> simp
    · simp [Form.absorbing]
  · right
    simp only [absorbKp]
    nlinarith [Real.two_le_pi]

end Examples

end Khepri
