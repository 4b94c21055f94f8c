import Verif.Props.Twisted
import Verif.Lemmas.AbsorbTwisted
import Verif.Lemmas.ExampleAbsorb

/-!
# C95: absorbing stacks of layers of two lattices can always be solved
-/

namespace Khepri

open Matrix

variable {M : ℕ}

section
variable {lib : NumLib} {order : List String} {tag : ℕ} {lhs rhs : Expansion M} {se : SumExpansion M}
  {c c1 c2 : Crystal (M * M)} {stack : List String} {m : Bool ⊕ List Bool} {Ls : List (TwistedLayer M)} {er et : ℝ}
  {wl : ℝ} {te tm : ℂ} {theta phi : ℝ} {kpo : Option (ℂ × ℂ)}

/-- **C95.** A stack of absorbing layers of two lattices, between media of positive permittivity, can be solved:
no layer meets a singular matrix at any of its shifted wave vectors, and no cascade does in the joint space. -/
theorem C95_device (he : ∀ n, EigContract (lib.eig n)) (hse : lhs.add tag rhs = .ok se)
    (hc : TwistedDevice se c stack m Ls er et) (h1 : c.setDevice stack m = .ok c1)
    (h2 : c1.setSource wl te tm theta phi kpo = .ok c2)
    (ho : SetOrder ("Sref" :: (stack ++ ["Strans"])) order) (hwl : 0 < wl) (her : 0 < er) (het : 0 < et)
    {src : Source} (hs : c2.source = some src) {kp : ℝ × ℝ} (hkp : src.kp = (↑kp.1, ↑kp.2))
    (hg : ∀ i, 1 - orderKx se.exp kp wl i ^ 2 - orderKy se.exp kp wl i ^ 2 ≠ 0)
    (hgr : ∀ i, er - orderKx se.exp kp wl i ^ 2 - orderKy se.exp kp wl i ^ 2 ≠ 0)
    (hgt : ∀ i, et - orderKx se.exp kp wl i ^ 2 - orderKy se.exp kp wl i ^ 2 ≠ 0)
    (hL : ∀ l ∈ Ls, 0 < l.depth ∧ l.strictlyAbsorbing lib.jv1 lhs rhs ∧ l.diagonalised lib lhs rhs kp wl) :
    ∃ c3, c2.solve lib order = .ok c3 := by
  obtain ⟨lr, lt, As, k, hAs, hd, hexp, hi, hie, hsrc⟩ := twisted_device hc h1 h2
  have hne : lhs.tag ≠ rhs.tag := by
    obtain ⟨-, -, hsl, hsr, -⟩ := add_eq_ok hse
    have := hc.two
    rwa [hsl, hsr] at this
  rw [hsrc, Option.some.injEq] at hs
  subst hs
  simp only at hkp
  subst hkp
  obtain ⟨rr, hrr⟩ := (half_solves lib hwl hg her hgr).1
  obtain ⟨rt, hrt⟩ := (half_solves lib hwl hg het hgt).2
  obtain ⟨As', Ss, i1, i2, hTP⟩ := twisted_chain_exists he hse hne hc.space hwl hg
    (fun x => Crystal.requested x (stack.zip (Crystal.maskList stack m))) hc.layers hAs hL
  obtain ⟨kz, hkv⟩ := real_kVectors se.exp hwl.ne' kp
  obtain ⟨V0, h0⟩ := gap_exists hg
  obtain ⟨kx, ky, kz1, W1, V1, hk1, g1, -, mr, sr, -⟩ := Form.solve_halfInc hrr
  rw [hkv, Except.ok.injEq, Prod.mk.injEq, Prod.mk.injEq] at hk1
  obtain ⟨rfl, rfl, -⟩ := hk1
  rw [h0, Except.ok.injEq, Prod.mk.injEq] at g1
  obtain ⟨rfl, rfl⟩ := g1
  obtain ⟨kx, ky, kz1, W1, V1, hk1, g1, -, mt, stt, -⟩ := Form.solve_halfTrn hrt
  rw [hkv, Except.ok.injEq, Prod.mk.injEq, Prod.mk.injEq] at hk1
  obtain ⟨rfl, rfl, -⟩ := hk1
  rw [h0, Except.ok.injEq, Prod.mk.injEq] at g1
  obtain ⟨rfl, rfl⟩ := g1
  obtain ⟨st, hst⟩ := stackLayers_strict (mask := true :: (Crystal.maskList stack m ++ [true]))
    (fun y => fluxZ_outer_bwd (p := ⟨0, y⟩) hg rfl) (fun x => fluxZ_outer_fwd (p := ⟨x, 0⟩) hg rfl)
    (reflection_passive h0 mr sr) (transmission_passive h0 mt stt) hTP
    (junction_passive her het h0 mr mt sr stt) (by
      simp [hd.mask_len, hd.layers.length_eq, i1.length_eq, i2.length_eq])
  obtain ⟨c3, h3, -⟩ := hd.solve_exists (lib := lib) ho hsrc (by rw [hexp]; exact hrr) i1 i2
    (by rw [hexp]; exact hrt) hst
  exact ⟨c3, h3⟩

/-- **C95.** The powers of a solved stack of layers of two lattices are always available: `poynting_flux_end` returns when the source is not dark
and its wave propagates in the incidence medium. -/
theorem C95_powers {c3 : Crystal (M * M)} (hse : lhs.add tag rhs = .ok se)
    (hc : TwistedDevice se c stack m Ls er et) (h1 : c.setDevice stack m = .ok c1)
    (h2 : c1.setSource wl te tm theta phi kpo = .ok c2)
    (ho : SetOrder ("Sref" :: (stack ++ ["Strans"])) order) (h3 : c2.solve lib order = .ok c3) (hwl : 0 < wl)
    {src : Source} (hs : c2.source = some src) {kp : ℝ × ℝ} (hkp : src.kp = (↑kp.1, ↑kp.2))
    (hp : 0 < er - (kp.1 / (2 * Real.pi / wl)) ^ 2 - (kp.2 / (2 * Real.pi / wl)) ^ 2)
    (hpol : (te, tm) ≠ (0, 0)) : ∃ f, c3.poyntingFluxEnd = .ok f := by
  obtain ⟨lr, lt, As, k, hAs, hd, hexp, hi, hie, hsrc⟩ := twisted_device hc h1 h2
  have hM := add_pos hse
  have hN : 0 < M * M := Nat.mul_pos hM hM
  rw [hsrc, Option.some.injEq] at hs
  subst hs
  simp only at hkp
  subst hkp
  obtain ⟨src', kxc, kyc, W0, V0, rr, As', Ss, rt, st, h⟩ := anySolved hd ho h3
  have hs' := h.source
  rw [hsrc, Option.some.injEq] at hs'
  subst hs'
  obtain ⟨rfl, rfl⟩ := h.real (kp := kp) rfl
  simp only at h
  obtain ⟨hgr, hWr, -, -⟩ := halfSpaceModes_outer h.ref_modes
  obtain ⟨hgt, hWt, -, -⟩ := halfSpaceModes_outer h.trans_modes
  have hk0 : 0 < 2 * Real.pi / wl := by have := Real.pi_pos; positivity
  have hkc : ((2 * Real.pi / wl : ℝ) : ℂ) ≠ 0 := by exact_mod_cast hk0.ne'
  have hkz : star (csqrt (((2 * Real.pi / wl : ℝ) : ℂ) ^ 2 * er - (kp.1 : ℂ) ^ 2 - (kp.2 : ℂ) ^ 2)) =
      ((2 * Real.pi / wl * Real.sqrt (er - (kp.1 / (2 * Real.pi / wl)) ^ 2 - (kp.2 / (2 * Real.pi / wl)) ^ 2) : ℝ) : ℂ) := by
    rw [Complex.ofReal_mul, ← outerKz_pos hp, ← outerKz_mul_sq hk0, ← star_csqrt_ofReal]
    congr 2
    generalize 2 * Real.pi / wl = k0 at *
    push_cast
    field_simp
  obtain ⟨inc, hinc⟩ := C17_returns hN hpol kp.1 kp.2
    (2 * Real.pi / wl * Real.sqrt (er - (kp.1 / (2 * Real.pi / wl)) ^ 2 - (kp.2 / (2 * Real.pi / wl)) ^ 2))
  rw [← hkz] at hinc
  obtain ⟨T, hT⟩ := media_flux_exists c2.expansion hwl kp (et := et) hgt hp
    ((1 * st.Stot.s21) *ᵥ ((1 : Mat2 (M * M))⁻¹ *ᵥ inc))
  obtain ⟨R, hR⟩ := media_flux_exists c2.expansion hwl kp (et := er) hgr hp
    ((1 * st.Stot.s11) *ᵥ ((1 : Mat2 (M * M))⁻¹ *ᵥ inc))
  have hst : c3.stacked = some st := by rw [h.rest']
  have hcs : c3.source = c2.source := by rw [h.rest']
  rw [hsrc] at hcs
  have hce : c3.expansion = c2.expansion := by rw [h.rest']
  have hci : c3.epsi = (er : ℂ) := by rw [h.rest']; exact hi
  have hcx : c3.epse = (et : ℂ) := by rw [h.rest']; exact hie
  refine ⟨_, Crystal.poyntingFluxEnd_eq_ok.2
    ⟨st, _, inc, _, _, 1, 1, T, R, hst, hcs, hinc, h.ref', ?_, by simp, h.trans', ?_, ?_, ?_, rfl⟩⟩
  · simp [AnyLayer.W, Layer.store, hWr, hd.ref_fields]
  · simp [AnyLayer.W, Layer.store, hWt, hd.trans_fields]
  · rw [hce, hci, hcx]; exact hT
  · rw [hce, hci]; exact hR

/-- **C95.** Power is lost as soon as one layer of positive depth of either lattice absorbs everywhere and no layer
amplifies: `R + T < 1`. -/
theorem C95_power_lost {c3 : Crystal (M * M)} (he : ∀ n, EigContract (lib.eig n)) (hl : Built lhs) (hr : Built rhs)
    (hse : lhs.add tag rhs = .ok se) (hc : TwistedDevice se c stack m Ls er et)
    (hL : ∀ l ∈ Ls, 0 ≤ l.depth ∧ l.absorbing lib.jv1 lhs rhs)
    (hst : ∃ l ∈ Ls, 0 < l.depth ∧ l.strictlyAbsorbing lib.jv1 lhs rhs)
    (h1 : c.setDevice stack m = .ok c1) (h2 : c1.setSource wl te tm theta phi kpo = .ok c2)
    (ho : SetOrder ("Sref" :: (stack ++ ["Strans"])) order) (h3 : c2.solve lib order = .ok c3)
    (hwl : 0 < wl) {src : Source} (hs : c2.source = some src) {kp : ℝ × ℝ}
    (hkp : src.kp = (↑kp.1, ↑kp.2))
    (hcut : (kp.1 = 0 ∧ kp.2 = 0) ∨ (1 / 10 ^ 8) ^ 2 ≤ kp.1 ^ 2 + kp.2 ^ 2)
    {f : Crystal.Fluxes (M * M)} (hf : c3.poyntingFluxEnd = .ok f) : f.R + f.T < 1 := by
  obtain ⟨Ms, F, G, κ, hκ, hM, hch, hF, hG, hne⟩ := twisted_energy he hl hr hse hc h1 h2 ho h3 hwl hs hkp hcut hf
  have hk0 : 0 < 2 * Real.pi / wl := by have := Real.pi_pos; positivity
  by_contra hge
  rw [not_lt] at hge
  refine hne (twisted_flux_strict hM (fun l hl => ⟨mul_nonneg (hL l hl).1 hk0.le,
    fun C hC => TwistedLayer.absorbing_perm (hL l hl).2 hC⟩) ?_ hch
    (by rw [hF, hG]; exact mul_le_mul_of_nonneg_left (by linarith) hκ.le))
  obtain ⟨l, hl', h0, hs'⟩ := hst
  exact ⟨l, hl', mul_pos h0 hk0, fun C hC => TwistedLayer.strict_perm (add_pos hse) hs' hC⟩

end

section Examples

/-- Absorbing plates registered on lattices of period 1 and 1/2, nine orders each, in vacuum at normal incidence: the
stack is solved for every eigensolver, its powers are available, and power is lost. -/
example (lib : NumLib) (he : ∀ n, EigContract (lib.eig n)) :
    ∃ (lhs rhs : Expansion 9) (se : SumExpansion 9) (b c c1 c2 c3 : Crystal (9 * 9)) (f : Crystal.Fluxes (9 * 9)),
    lhs.add 2 rhs = .ok se ∧
    Crystal.addExtended { expansion := se.exp, layers := fun _ => none } se "a"
      (Layer.uniform lhs (4 - Complex.I) 1) = .ok b ∧
    b.addExtended se "b" (Layer.uniform rhs (2 - 3 * Complex.I) 2) = .ok c ∧
    c.setDevice ["a", "b"] (.inl true) = .ok c1 ∧ c1.setSource 4 1 0 0 0 (some (((0 : ℝ) : ℂ), ((0 : ℝ) : ℂ))) = .ok c2 ∧
    c2.solve lib ["Sref", "a", "b", "Strans"] = .ok c3 ∧ c3.poyntingFluxEnd = .ok f ∧ f.R + f.T < 1 := by
  obtain ⟨lhs, rhs, se, hbl, hbr, hne, hse, hg⟩ := two_lattices
  obtain ⟨-, -, hl, hr, -⟩ := add_eq_ok hse
  obtain ⟨b, hb, rb, ob, qb⟩ := (C85_registered { expansion := se.exp, layers := fun _ => none } se "a"
    (Layer.uniform lhs (4 - Complex.I) 1) trivial).1 hl.symm
  obtain ⟨c, hcc, rc, oc, qc⟩ := (C85_registered b se "b" (Layer.uniform rhs (2 - 3 * Complex.I) 2) trivial).2.1 hr.symm
  have e1 : b.expansion = se.exp ∧ b.void = false ∧ b.epsi = 1 ∧ b.epse = 1 :=
    ⟨(congrArg Crystal.expansion qb :), (congrArg Crystal.void qb :), (congrArg Crystal.epsi qb :), (congrArg Crystal.epse qb :)⟩
  have e2 : c.expansion = b.expansion ∧ c.void = b.void ∧ c.epsi = b.epsi ∧ c.epse = b.epse :=
    ⟨(congrArg Crystal.expansion qc :), (congrArg Crystal.void qc :), (congrArg Crystal.epsi qc :), (congrArg Crystal.epse qc :)⟩
  have hc : TwistedDevice se c ["a", "b"] (.inl true)
      [.first (Layer.uniform lhs (4 - Complex.I) 1), .second (Layer.uniform rhs (2 - 3 * Complex.I) 2)]
      ((1 : ℝ) : ℂ) ((1 : ℝ) : ℂ) :=
    { space := e2.1.trans e1.1
      two := by rw [hl, hr]; exact hne
      void := e2.2.1.trans e1.2.1
      epsi := by rw [e2.2.2.1, e1.2.2.1]; simp
      epse := by rw [e2.2.2.2, e1.2.2.2]; simp
      noRef := by rw [oc _ (by decide), ob _ (by decide)]
      noTrans := by rw [oc _ (by decide), ob _ (by decide)]
      layers := by
        refine .cons ?_ (.cons rc .nil)
        obtain ⟨p1, p2, a, p3, p4⟩ := rb
        exact ⟨p1, p2, a, p3, by rw [oc _ (by decide)]; exact p4⟩
      mask := by simp }
  obtain ⟨As, hAs⟩ : ∃ As : List (AnyLayer (9 * 9)), List.Forall₂ (fun x a => c.layers x = some a) ["a", "b"] As := by
    obtain ⟨-, -, xa, -, p⟩ := rb
    obtain ⟨-, -, xb, -, q⟩ := rc
    exact ⟨[.ext xa, .ext xb], .cons (by rw [oc _ (by decide)]; exact p) (.cons q .nil)⟩
  obtain ⟨c1, h1, -, -, -, hi, -⟩ := Crystal.setDevice_any (m := .inl true) hc.void hc.noRef hc.noTrans hAs
    (by simp [Crystal.maskList])
  have h2 : ∃ c2 src, c1.setSource 4 1 0 0 0 (some (((0 : ℝ) : ℂ), ((0 : ℝ) : ℂ))) = .ok c2 ∧ c2.source = some src ∧
      src.kp = (((0 : ℝ) : ℂ), ((0 : ℝ) : ℂ)) :=
    ⟨_, _, Crystal.setSource_eq_ok.2 ⟨four_ne_zero, _, rfl, rfl⟩, rfl, rfl⟩
  obtain ⟨c2, src, h2, hs, hk⟩ := h2
  have hg' : ∀ i, 1 - orderKx se.exp (0, 0) 4 i ^ 2 - orderKy se.exp (0, 0) 4 i ^ 2 ≠ 0 := by
    intro i h
    refine two_lattices_not_grazing (hg i) ?_
    have : ((1 - orderKx se.exp (0, 0) 4 i ^ 2 - orderKy se.exp (0, 0) 4 i ^ 2 : ℝ) : ℂ) = 0 := by rw [h]; simp
    refine Eq.trans ?_ this
    simp [orderKx, orderKy]
  have ho : SetOrder ("Sref" :: (["a", "b"] ++ ["Strans"])) ["Sref", "a", "b", "Strans"] :=
    ⟨by decide, fun x => by simp⟩
  have hst : ∀ l ∈ [TwistedLayer.first (Layer.uniform lhs (4 - Complex.I) 1), .second (Layer.uniform rhs (2 - 3 * Complex.I) 2)],
      0 < l.depth ∧ l.strictlyAbsorbing lib.jv1 lhs rhs := by
    simp [TwistedLayer.depth, TwistedLayer.strictlyAbsorbing, Layer.uniform, Form.strictlyAbsorbing]
  obtain ⟨c3, h3⟩ := C95_device he hse hc h1 h2 ho four_pos one_pos one_pos hs (kp := (0, 0)) hk hg' hg' hg' fun l hl =>
    ⟨(hst l hl).1, (hst l hl).2, by
      simp only [List.mem_cons, List.not_mem_nil, or_false] at hl
      rcases hl with rfl | rfl <;> exact fun _ => trivial⟩
  obtain ⟨f, hf⟩ := C95_powers hse hc h1 h2 ho h3 four_pos hs (kp := (0, 0)) hk (by simp) (by simp)
  refine ⟨lhs, rhs, se, b, c, c1, c2, c3, f, hse, hb, hcc, h1, h2, h3, hf, ?_⟩
  refine C95_power_lost he hbl hbr hse hc (fun l hl => ⟨(hst l hl).1.le, ?_⟩) ⟨_, List.mem_cons_self, hst _ List.mem_cons_self⟩
    h1 h2 ho h3 four_pos hs (kp := (0, 0)) hk (Or.inl ⟨rfl, rfl⟩) hf
  simp only [List.mem_cons, List.not_mem_nil, or_false] at hl
  rcases hl with rfl | rfl <;> simp [TwistedLayer.absorbing, Layer.uniform, Form.absorbing]

/-- What is asked of the eigensolver, for pixmaps of two absorbing media on both lattices. -/
example (kp : ℝ × ℝ) (wl : ℝ) : ∀ l ∈ [TwistedLayer.first (formLayer (dotExpansion 0) (.fft absorbPix) (1 / 4)),
      .second (formLayer (dotExpansion 1) (.fft absorbPix) 1)], 0 < l.depth ∧
      l.strictlyAbsorbing exampleLib.jv1 (dotExpansion 0) (dotExpansion 1) ∧
      l.diagonalised exampleLib (dotExpansion 0) (dotExpansion 1) kp wl := by
  have h : ∀ t, (Form.fft absorbPix).strictlyAbsorbing exampleLib.jv1 (dotExpansion t) := by
    intro t
    refine ⟨by simp [dotExpansion, exampleExpansion, absorbPix], by simp [dotExpansion, exampleExpansion, absorbPix], fun x y => ?_⟩
    simp only [absorbPix]
    split_ifs <;> simp
  intro l hl
  simp only [List.mem_cons, List.not_mem_nil, or_false] at hl
  rcases hl with rfl | rfl
  · exact ⟨by norm_num [TwistedLayer.depth, formLayer], h 0, fun i => example_diagonalised (h 0) _ _⟩
  · exact ⟨by norm_num [TwistedLayer.depth, formLayer], h 1, fun i => example_diagonalised (h 1) _ _⟩

end Examples

end Khepri
