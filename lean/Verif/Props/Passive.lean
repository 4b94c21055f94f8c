import Verif.Lemmas.Guided
import Verif.Props.Absorb

/-!
# C96: stacks without gain

Claim: a stack of layers without gain and of non negative depth, between media of positive permittivity in which every
order propagates, can be solved. It is false: every layer is first solved alone in vacuum, so a slab which guides light
in vacuum raises although the device has no guided mode. Nothing else can go wrong: the device is solved exactly when
every layer is.
-/

namespace Khepri

open Matrix

variable {N : ℕ}

/-- **C96** (part: the layers). A uniform layer without gain, lossy or not, metal or dielectric, of any depth, can be
solved when every order propagates in vacuum and none is at grazing incidence in the layer. -/
theorem C96_uniform_layer_partial (lib : NumLib) {e : Expansion N} {kp : ℝ × ℝ} {wl : ℝ} (hwl : 0 < wl)
    (hp : ∀ i, 0 < 1 - orderKx e kp wl i ^ 2 - orderKy e kp wl i ^ 2) {eps : ℂ} (hi : eps.im ≤ 0) (heps : eps ≠ 0)
    (hg : ∀ i, eps - (orderKx e kp wl i : ℂ) ^ 2 - (orderKy e kp wl i : ℂ) ^ 2 ≠ 0) {d : ℝ} (hd : 0 ≤ d) :
    ∃ r, (Form.uniform eps).solve lib e d ((kp.1 : ℂ), (kp.2 : ℂ)) wl = .ok r :=
  uniform_solve lib hwl hp hi heps hg hd

section
variable {lib : NumLib} {order : List String} {c c1 c2 : Crystal N} {stack : List String}
  {m : Bool ⊕ List Bool} {Ls : List (Layer N)} {er et : ℝ} {wl : ℝ} {te tm : ℂ} {theta phi : ℝ}
  {kpo : Option (ℂ × ℂ)}

/-- **C96** (part: the cascade). A device of layers without gain is solved exactly when each of its layers is, if every
order propagates in both outer media, or in one of them and in vacuum: the cascade itself never meets a singular
matrix. -/
theorem C96_device_partial (he : EigContract (lib.eig N))
    (hc : FreshDevice c stack m Ls er et) (h1 : c.setDevice stack m = .ok c1)
    (h2 : c1.setSource wl te tm theta phi kpo = .ok c2)
    (ho : SetOrder ("Sref" :: (stack ++ ["Strans"])) order) (hwl : 0 < wl) (her : 0 < er) (het : 0 < et)
    {src : Source} (hs : c2.source = some src) {kp : ℝ × ℝ} (hkp : src.kp = (↑kp.1, ↑kp.2))
    (hg : ∀ i, 1 - orderKx c.expansion kp wl i ^ 2 - orderKy c.expansion kp wl i ^ 2 ≠ 0)
    (hgr : ∀ i, er - orderKx c.expansion kp wl i ^ 2 - orderKy c.expansion kp wl i ^ 2 ≠ 0)
    (hgt : ∀ i, et - orderKx c.expansion kp wl i ^ 2 - orderKy c.expansion kp wl i ^ 2 ≠ 0)
    (hprop : ((∀ i, 0 < er - orderKx c.expansion kp wl i ^ 2 - orderKy c.expansion kp wl i ^ 2) ∧
        ∀ i, 0 < et - orderKx c.expansion kp wl i ^ 2 - orderKy c.expansion kp wl i ^ 2) ∨
      (((∀ i, 0 < er - orderKx c.expansion kp wl i ^ 2 - orderKy c.expansion kp wl i ^ 2) ∨
        ∀ i, 0 < et - orderKx c.expansion kp wl i ^ 2 - orderKy c.expansion kp wl i ^ 2) ∧
        ∀ i, 0 < 1 - orderKx c.expansion kp wl i ^ 2 - orderKy c.expansion kp wl i ^ 2))
    (hL : ∀ l ∈ Ls, 0 ≤ l.depth ∧ l.form.absorbing lib.jv1 c.expansion) :
    (∃ c3, c2.solve lib order = .ok c3) ↔
      ∀ l ∈ Ls, ∃ r, l.form.solve lib c.expansion l.depth ((kp.1 : ℂ), (kp.2 : ℂ)) wl = .ok r := by
  obtain ⟨lr, lt, Ls', k, hd, hLL, hexp, hi, hie, hwl', hk, hsrc, -⟩ := fresh_standard hc h1 h2
  rw [hsrc, Option.some.injEq] at hs
  subst hs
  simp only at hkp
  subst hkp
  constructor
  · rintro ⟨c3, h3⟩ l hl
    obtain ⟨src', names, ls, pos, Ss, st, hs', -, hsol, -⟩ := (Crystal.solve_eq_ok ho.1).1 h3
    rw [hsrc, Option.some.injEq] at hs'
    subst hs'
    obtain ⟨x, l', hx, hl', e1, e2, e3⟩ : ∃ x l', x ∈ stack ∧ c2.layers x = some (.plain l') ∧ l'.form = l.form ∧
        l'.depth = l.depth ∧ l'.expansion = c2.expansion := by
      have hd' := hd.layers
      clear hL hc h1 h2 hd ho
      induction hLL generalizing stack with
      | nil => simp at hl
      | cons h _ ih =>
        cases hd' with
        | cons h' ht =>
          rcases List.mem_cons.1 hl with rfl | hl
          · exact ⟨_, _, by simp, h'.1, h.1, h.2, h'.2.2⟩
          · obtain ⟨x, l', a1, a2⟩ := ih hl ht
            exact ⟨x, l', by simp [a1], a2⟩
    obtain ⟨a, a', ha, ha', -⟩ := hsol x ((ho.2 _).2 (by simp [hx]))
    rw [hl', Option.some.injEq] at ha
    subst ha
    obtain ⟨r, hr, -⟩ := AnyLayer.solve_plain.1 ha'
    rw [e1, e2, e3, hexp] at hr
    exact ⟨r, hr⟩
  · intro hsol
    have hL' : ∀ l ∈ Ls', l.form.isLayer ∧ 0 ≤ l.depth ∧ l.form.absorbing lib.jv1 c.expansion ∧
        ∃ r, l.form.solve lib c.expansion l.depth ((kp.1 : ℂ), (kp.2 : ℂ)) wl = .ok r := by
      intro l' hl'
      obtain ⟨l, hl, e1, e2⟩ : ∃ l ∈ Ls, l'.form = l.form ∧ l'.depth = l.depth := by
        clear hL hd hc h1 h2 hsol
        induction hLL with
        | nil => simp at hl'
        | cons h _ ih =>
          rcases List.mem_cons.1 hl' with rfl | hl'
          · exact ⟨_, by simp, h⟩
          · obtain ⟨l, hl, h'⟩ := ih hl'
            exact ⟨l, by simp [hl], h'⟩
      rw [e1, e2]
      refine ⟨?_, (hL l hl).1, (hL l hl).2, hsol l hl⟩
      have := (hL l hl).2
      revert this
      cases l.form <;> simp [Form.absorbing, Form.isLayer]
    obtain ⟨rr, hrr⟩ := (half_solves lib hwl hg her hgr).1
    obtain ⟨rt, hrt⟩ := (half_solves lib hwl hg het hgt).2
    obtain ⟨rs, hrs⟩ : ∃ rs, List.Forall₂ (fun (l : Layer N) r =>
        l.form.solve lib c.expansion l.depth ((kp.1 : ℂ), (kp.2 : ℂ)) wl = .ok r ∧
        Passes (gapFlux (orderKx c.expansion kp wl) (orderKy c.expansion kp wl)) r.S) Ls' rs := by
      clear hLL hd
      induction Ls' with
      | nil => exact ⟨[], .nil⟩
      | cons l Ls' ih =>
        obtain ⟨rs, hrs⟩ := ih fun l hl => hL' l (by simp [hl])
        obtain ⟨a1, a2, a3, r, hr⟩ := hL' l (by simp)
        exact ⟨r :: rs, .cons ⟨hr, solved_passes he hwl a1 a3 a2 hr⟩ hrs⟩
    obtain ⟨kz, hkv⟩ := real_kVectors c.expansion hwl.ne' kp
    obtain ⟨V0, h0⟩ := gap_exists hg
    obtain ⟨kx, ky, kz1, W1, V1, hk1, g1, -, mr, sr, -⟩ := Form.solve_halfInc hrr
    rw [hkv, Except.ok.injEq, Prod.mk.injEq, Prod.mk.injEq] at hk1
    obtain ⟨rfl, rfl, -⟩ := hk1
    rw [h0, Except.ok.injEq, Prod.mk.injEq] at g1
    obtain ⟨rfl, rfl⟩ := g1
    obtain ⟨kx, ky, kz1, W1, V1, hk1, g1, -, mt, stt, -⟩ := Form.solve_halfTrn hrt
    rw [hkv, Except.ok.injEq, Prod.mk.injEq, Prod.mk.injEq] at hk1
    obtain ⟨rfl, rfl, -⟩ := hk1
    rw [h0, Except.ok.injEq, Prod.mk.injEq] at g1
    obtain ⟨rfl, rfl⟩ := g1
    have hP : ∀ S ∈ rs.map Solved.S,
        Passes (gapFlux (orderKx c.expansion kp wl) (orderKy c.expansion kp wl)) S := by
      intro S hS
      obtain ⟨r, hr, rfl⟩ := List.mem_map.1 hS
      clear hLL hd hL' hS
      induction hrs with
      | nil => simp at hr
      | cons h _ ih =>
        rcases List.mem_cons.1 hr with rfl | hr
        · exact h.2
        · exact ih hr
    obtain ⟨st, hst⟩ := stackLayers_passive (mask := true :: (Crystal.maskList stack m ++ [true]))
      (fun y => fluxZ_outer_bwd (p := ⟨0, y⟩) hg rfl) (fun x => fluxZ_outer_fwd (p := ⟨x, 0⟩) hg rfl)
      (reflection_passive h0 mr sr) (transmission_passive h0 mt stt) hP
      (by
        rcases hprop with ⟨a, b⟩ | ⟨a, b⟩
        · exact Or.inl ⟨reflection_strict a h0 mr sr, transmission_strict b h0 mt stt⟩
        · exact Or.inr ⟨a.imp (fun a => reflection_strict a h0 mr sr) (fun a => transmission_strict a h0 mt stt),
            fun x hx => fluxZ_fwd_zero (er := 1) b hx, fun y hy => fluxZ_bwd_zero (er := 1) b hy⟩)
      (by simp [hd.mask_len, hd.layers.length_eq, hrs.length_eq])
    obtain ⟨c3, h3, -⟩ := hd.solve_exists (lib := lib) ho hsrc (by rw [hexp]; exact hrr)
      (by rw [hexp]; exact hrs.imp fun _ _ h => h.1) (by rw [hexp]; exact hrt) hst
    exact ⟨c3, h3⟩

/-- **C96** (part: multilayers). A stack of uniform layers without gain can be solved when every order propagates in
vacuum and in one of the outer media, and none is at grazing incidence in a layer or in an outer medium. -/
theorem C96_uniform_stack_partial (he : EigContract (lib.eig N))
    (hc : FreshDevice c stack m Ls er et) (h1 : c.setDevice stack m = .ok c1)
    (h2 : c1.setSource wl te tm theta phi kpo = .ok c2)
    (ho : SetOrder ("Sref" :: (stack ++ ["Strans"])) order) (hwl : 0 < wl) (her : 0 < er) (het : 0 < et)
    {src : Source} (hs : c2.source = some src) {kp : ℝ × ℝ} (hkp : src.kp = (↑kp.1, ↑kp.2))
    (hp : ∀ i, 0 < 1 - orderKx c.expansion kp wl i ^ 2 - orderKy c.expansion kp wl i ^ 2)
    (hgr : ∀ i, er - orderKx c.expansion kp wl i ^ 2 - orderKy c.expansion kp wl i ^ 2 ≠ 0)
    (hgt : ∀ i, et - orderKx c.expansion kp wl i ^ 2 - orderKy c.expansion kp wl i ^ 2 ≠ 0)
    (hprop : (∀ i, 0 < er - orderKx c.expansion kp wl i ^ 2 - orderKy c.expansion kp wl i ^ 2) ∨
        ∀ i, 0 < et - orderKx c.expansion kp wl i ^ 2 - orderKy c.expansion kp wl i ^ 2)
    (hL : ∀ l ∈ Ls, 0 ≤ l.depth ∧ ∃ eps : ℂ, l.form = .uniform eps ∧ eps.im ≤ 0 ∧ eps ≠ 0 ∧
      ∀ i, eps - (orderKx c.expansion kp wl i : ℂ) ^ 2 - (orderKy c.expansion kp wl i : ℂ) ^ 2 ≠ 0) :
    ∃ c3, c2.solve lib order = .ok c3 := by
  refine (C96_device_partial he hc h1 h2 ho hwl her het hs hkp (fun i => (hp i).ne') hgr hgt (Or.inr ⟨hprop, hp⟩)
    fun l hl => ?_).2 fun l hl => ?_
  · obtain ⟨hd, eps, hf, hi, -⟩ := hL l hl
    refine ⟨hd, ?_⟩
    rw [hf]; exact hi
  · obtain ⟨hd, eps, hf, hi, h0, hg⟩ := hL l hl
    rw [hf]
    exact C96_uniform_layer_partial lib hwl hp hi h0 hg hd

end

/-- **C96** (the claim fails). A lossless slab of permittivity 3 and depth 1/4 between two media of permittivity 4, in
which the only order propagates: no eigensolver and no order of the layers lets `solve` return. The same slab given as
two halves is solved. -/
theorem C96_counterexample (lib : NumLib) (he : EigContract (lib.eig 1)) (te tm : ℂ) (b : Bool) :
    (∃ c1 c2, guidedCrystal.setDevice ["whole"] (.inl b) = .ok c1 ∧
      c1.setSource 1 te tm 0 0 (some ((guidedKp.1 : ℂ), (guidedKp.2 : ℂ))) = .ok c2 ∧
      ∀ order, SetOrder ["Sref", "whole", "Strans"] order → ∀ c3, c2.solve lib order ≠ .ok c3) ∧
    ∃ c1 c2 c3, guidedCrystal.setDevice ["half", "half"] (.inl b) = .ok c1 ∧
      c1.setSource 1 te tm 0 0 (some ((guidedKp.1 : ℂ), (guidedKp.2 : ℂ))) = .ok c2 ∧
      c2.solve lib ["Sref", "half", "Strans"] = .ok c3 := by
  constructor
  · obtain ⟨c1, c2, src, h1, h2, hs, hk⟩ := guided_source (guided_fresh_whole b) te tm
    refine ⟨c1, c2, h1, h2, fun order ho c3 h3 => ?_⟩
    obtain ⟨r, hr⟩ := (C96_device_partial he (guided_fresh_whole b) h1 h2 ho one_pos (by norm_num) (by norm_num) hs hk
      guided_evanescent (fun i => (guided_propagates i).ne') (fun i => (guided_propagates i).ne')
      (Or.inl ⟨guided_propagates, guided_propagates⟩) (by
        intro l hl
        simp only [List.mem_singleton] at hl
        subst hl
        exact ⟨by norm_num, by simp [Form.absorbing]⟩)).1 ⟨c3, h3⟩ _ List.mem_cons_self
    exact guided_quarter lib r hr
  · obtain ⟨c1, c2, src, h1, h2, hs, hk⟩ := guided_source (guided_fresh_halves b) te tm
    obtain ⟨c3, h3⟩ := (C96_device_partial he (guided_fresh_halves b) h1 h2
      (order := ["Sref", "half", "Strans"]) ⟨by decide, fun x => by simp⟩ one_pos (by norm_num) (by norm_num) hs hk
      guided_evanescent (fun i => (guided_propagates i).ne') (fun i => (guided_propagates i).ne')
      (Or.inl ⟨guided_propagates, guided_propagates⟩) (by
        intro l hl
        simp only [List.mem_cons, List.not_mem_nil, or_false, or_self] at hl
        subst hl
        exact ⟨by norm_num, by simp [Form.absorbing]⟩)).2 (by
        intro l hl
        simp only [List.mem_cons, List.not_mem_nil, or_false, or_self] at hl
        subst hl
        exact guided_eighth lib)
    exact ⟨c1, c2, c3, h1, h2, h3⟩

section Examples

/-- Three plates of two dielectrics and glass behind. -/
noncomputable def mirrorCrystal : Crystal 1 :=
  { expansion := exampleExpansion
    epsi := ((1 : ℝ) : ℂ)
    epse := ((9 / 4 : ℝ) : ℂ)
    layers := fun x =>
      if x = "h" then some (.plain { expansion := exampleExpansion, form := .uniform 4, depth := 1 / 8 })
      else if x = "l" then some (.plain { expansion := exampleExpansion, form := .uniform 2, depth := 1 / 6 })
      else none }

noncomputable def mirrorLayers : List (Layer 1) :=
  [{ expansion := exampleExpansion, form := .uniform 4, depth := 1 / 8 },
    { expansion := exampleExpansion, form := .uniform 2, depth := 1 / 6 },
    { expansion := exampleExpansion, form := .uniform 4, depth := 1 / 8 }]

theorem mirror_fresh (b : Bool) :
    FreshDevice mirrorCrystal ["h", "l", "h"] (.inl b) mirrorLayers ((1 : ℝ) : ℂ) ((9 / 4 : ℝ) : ℂ) where
  void := rfl
  epsi := rfl
  epse := rfl
  noRef := by simp [mirrorCrystal]
  noTrans := by simp [mirrorCrystal]
  layers := .cons ⟨by simp [mirrorCrystal], trivial, rfl⟩ (.cons ⟨by simp [mirrorCrystal], trivial, rfl⟩
    (.cons ⟨by simp [mirrorCrystal], trivial, rfl⟩ .nil))
  mask := by simp

theorem mirror_propagates {a : ℝ} (ha : 1 / 4 < a) (i : Fin 1) :
    0 < a - orderKx exampleExpansion absorbKp 1 i ^ 2 - orderKy exampleExpansion absorbKp 1 i ^ 2 := by
  rw [absorbKp, oblique_kx, oblique_ky]
  norm_num
  linarith

/-- A layer of a metal without loss at oblique incidence. -/
example : ∃ r, (Form.uniform (-2)).solve exampleLib exampleExpansion 1 ((absorbKp.1 : ℂ), (absorbKp.2 : ℂ)) 1 = .ok r :=
  C96_uniform_layer_partial exampleLib one_pos (mirror_propagates (by norm_num)) (by simp) (by norm_num)
    (fun i => by rw [absorbKp, oblique_kx, oblique_ky]; norm_num) (by norm_num)

/-- A dielectric mirror at oblique incidence is solved, and its powers sum to one. -/
example (b : Bool) : ∃ c1 c2 c3 f, mirrorCrystal.setDevice ["h", "l", "h"] (.inl b) = .ok c1 ∧
    c1.setSource 1 1 0 0 0 (some ((absorbKp.1 : ℂ), (absorbKp.2 : ℂ))) = .ok c2 ∧
    c2.solve exampleLib ["Sref", "h", "l", "Strans"] = .ok c3 ∧ c3.poyntingFluxEnd = .ok f ∧ f.R + f.T = 1 := by
  have hfr := mirror_fresh b
  obtain ⟨c1, h1, hd, hexp, -, hi, hie⟩ := Crystal.setDevice_standard (m := .inl b) hfr.void hfr.noRef
    hfr.noTrans hfr.layers (by simp [Crystal.maskList])
  obtain ⟨c2, src, h2, hs, hk⟩ : ∃ c2 src, c1.setSource 1 1 0 0 0 (some ((absorbKp.1 : ℂ), (absorbKp.2 : ℂ))) = .ok c2 ∧
      c2.source = some src ∧ src.kp = ((absorbKp.1 : ℂ), (absorbKp.2 : ℂ)) :=
    ⟨_, _, Crystal.setSource_eq_ok.2 ⟨one_ne_zero, _, rfl, rfl⟩, rfl, rfl⟩
  have ho : SetOrder ("Sref" :: (["h", "l", "h"] ++ ["Strans"])) ["Sref", "h", "l", "Strans"] :=
    ⟨by decide, fun x => by simp; tauto⟩
  have h0 : (2 * Real.pi * (1 / 2) : ℝ) / (2 * Real.pi / 1) = 1 / 2 := by
    have := Real.pi_pos
    field_simp
  obtain ⟨c3, h3⟩ := C96_uniform_stack_partial (exampleLib_contract 1) hfr h1 h2 ho one_pos one_pos (by norm_num) hs hk
    (mirror_propagates (by norm_num)) (fun i => (mirror_propagates (by norm_num) i).ne')
    (fun i => (mirror_propagates (by norm_num) i).ne') (Or.inl (mirror_propagates (by norm_num))) (by
      intro l hl
      simp only [mirrorLayers, List.mem_cons, List.not_mem_nil, or_false] at hl
      rcases hl with rfl | rfl | rfl
      · exact ⟨by norm_num, 4, rfl, by simp, by norm_num,
          fun i => by rw [absorbKp, mirrorCrystal, oblique_kx, oblique_ky]; norm_num⟩
      · exact ⟨by norm_num, 2, rfl, by simp, by norm_num,
          fun i => by rw [absorbKp, mirrorCrystal, oblique_kx, oblique_ky]; norm_num⟩
      · exact ⟨by norm_num, 4, rfl, by simp, by norm_num,
          fun i => by rw [absorbKp, mirrorCrystal, oblique_kx, oblique_ky]; norm_num⟩)
  obtain ⟨f, hf⟩ := C94_powers exampleExpansion_built hfr h1 h2 ho h3 one_pos hs hk
    (by simp only [absorbKp, h0]; norm_num) (by simp)
  refine ⟨c1, c2, c3, f, h1, h2, h3, hf, ?_⟩
  refine C15_energy_conserved (exampleLib_contract 1) exampleExpansion_built hfr ?_ h1 h2 ho h3 one_pos hs hk ?_ hf
  · intro l hl
    simp only [mirrorLayers, List.mem_cons, List.not_mem_nil, or_false] at hl
    rcases hl with rfl | rfl | rfl <;> simp [Form.lossless]
  · right
    simp only [absorbKp]
    nlinarith [Real.two_le_pi]

end Examples

end Khepri
