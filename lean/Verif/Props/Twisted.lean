import Verif.Lemmas.Twisted
import Verif.Lemmas.ExampleTwistedDevice
import Verif.Props.Crystal

/-!
# Property C85: stacks of layers of two lattices
-/

set_option linter.unusedSectionVars false

namespace Khepri

open Matrix

variable {M : ℕ}

namespace TwistedLayer

/-- A layer without losses, whatever its lattice. -/
def lossless : TwistedLayer M → Prop
  | uniform eps _ => eps.im = 0
  | first l => l.form.lossless
  | second l => l.form.lossless

/-- A layer that absorbs or is lossless, whatever its lattice. -/
def absorbing (jv1 : ℝ → ℝ) (lhs rhs : Expansion M) : TwistedLayer M → Prop
  | uniform eps _ => eps.im ≤ 0
  | first l => l.form.absorbing jv1 lhs
  | second l => l.form.absorbing jv1 rhs

end TwistedLayer

theorem TwistedLayer.lossless_perm {jv1 : ℝ → ℝ} {lhs rhs : Expansion M} {l : TwistedLayer M} (h : l.lossless)
    {C : Matrix (Fin (M * M)) (Fin (M * M)) ℂ} (hC : l.Permittivity jv1 lhs rhs C) : LosslessMat C := by
  cases l with
  | uniform eps d =>
    intro u
    rw [show C = eps • 1 from hC, quad_smul_one, show eps.im = 0 from h, zero_mul]
  | first l =>
    obtain ⟨C1, h1, h2⟩ := hC
    exact spread_lossless (first_spread h2) (Khepri.lossless_perm h h1)
  | second l =>
    obtain ⟨C1, h1, h2⟩ := hC
    exact spread_lossless (second_spread h2) (Khepri.lossless_perm h h1)

theorem TwistedLayer.absorbing_perm {jv1 : ℝ → ℝ} {lhs rhs : Expansion M} {l : TwistedLayer M}
    (h : l.absorbing jv1 lhs rhs)
    {C : Matrix (Fin (M * M)) (Fin (M * M)) ℂ} (hC : l.Permittivity jv1 lhs rhs C) : AbsorbingMat C := by
  cases l with
  | uniform eps d =>
    intro u
    rw [show C = eps • 1 from hC, quad_smul_one]
    exact mul_nonpos_of_nonpos_of_nonneg h (Finset.sum_nonneg fun _ _ => sq_nonneg _)
  | first l =>
    obtain ⟨C1, h1, h2⟩ := hC
    exact spread_absorbing (first_spread h2) (Khepri.absorbing_perm h h1)
  | second l =>
    obtain ⟨C1, h1, h2⟩ := hC
    exact spread_absorbing (second_spread h2) (Khepri.absorbing_perm h h1)

section
variable {lib : NumLib} {order : List String} {tag : ℕ} {lhs rhs : Expansion M} {se : SumExpansion M}
  {c c1 c2 c3 : Crystal (M * M)} {stack : List String} {m : Bool ⊕ List Bool} {Ls : List (TwistedLayer M)} {er et : ℝ}
  {wl : ℝ} {te tm : ℂ} {theta phi : ℝ} {kpo : Option (ℂ × ℂ)}

/-- **C85.** Layers of two lattices stacked in a crystal of the joint expansion, with `set_device`, `set_source` and
`solve`: the total matrix relates the amplitudes of the outer media exactly when there is a field over the joint
orders that obeys Maxwell's equations in every layer (a layer of one lattice couples orders that differ by vectors of
that lattice), is continuous at every interface, and is made of the plane waves with those amplitudes outside. -/
theorem C85_maxwell (he : ∀ n, EigContract (lib.eig n)) (hse : lhs.add tag rhs = .ok se)
    (hc : TwistedDevice se c stack m Ls er et)
    (h1 : c.setDevice stack m = .ok c1) (h2 : c1.setSource wl te tm theta phi kpo = .ok c2)
    (ho : SetOrder ("Sref" :: (stack ++ ["Strans"])) order) (h3 : c2.solve lib order = .ok c3)
    {src : Source} (hs : c2.source = some src) {kp : ℝ × ℝ} (hkp : src.kp = (↑kp.1, ↑kp.2)) :
    ∃ st Ms, c3.stacked = some st ∧
      TwistedEquations lib.jv1 lhs rhs (orderKx se.exp kp wl) (orderKy se.exp kp wl) (2 * Real.pi / wl) Ls Ms ∧
      ∀ p q, Scatters st.Stot p q ↔ MaxwellChain Ms
        (outerField (orderKx se.exp kp wl) (orderKy se.exp kp wl) er p)
        (outerField (orderKx se.exp kp wl) (orderKy se.exp kp wl) et q) := by
  obtain ⟨lr, lt, As, k, hAs, hd, hexp, hi, hie, hsrc⟩ := twisted_device hc h1 h2
  obtain ⟨src', kxc, kyc, W0, V0, rr, As', Ss, rt, st, h⟩ := anySolved hd ho h3
  have hs' := h.source
  rw [hs, Option.some.injEq] at hs'
  subst hs'
  rw [hs, Option.some.injEq] at hsrc
  have hw : src.wavelength = wl := by rw [hsrc]
  obtain ⟨rfl, rfl⟩ := h.real hkp
  rw [hw, hexp] at h
  obtain ⟨kz, hkv⟩ := h.kv
  rw [hexp, hw] at hkv
  obtain ⟨-, -, hsl, hsr, -⟩ := add_eq_ok hse
  obtain ⟨In, Ms, i1, i2, i3, -⟩ := twisted_chain he hse (by rw [← hsl, ← hsr]; exact hc.two) hc.space hkv h.gap _
    hc.layers hAs (by simpa only [hw] using h.lay) h.scat
  have hfc := h.fieldChain hd (by simpa only [hw] using i1)
  rw [hw] at hfc
  obtain ⟨-, -, -, hor⟩ := halfSpaceModes_outer h.ref_modes
  obtain ⟨-, -, -, hot⟩ := halfSpaceModes_outer h.trans_modes
  refine ⟨st, Ms, by rw [h.rest'], i2, fun p q => ?_⟩
  rw [hfc, i3, hor, hot]

/-- **C85**, existence and uniqueness of the field, whatever the waves sent from both sides. -/
theorem C85_unique (he : ∀ n, EigContract (lib.eig n)) (hse : lhs.add tag rhs = .ok se)
    (hc : TwistedDevice se c stack m Ls er et)
    (h1 : c.setDevice stack m = .ok c1) (h2 : c1.setSource wl te tm theta phi kpo = .ok c2)
    (ho : SetOrder ("Sref" :: (stack ++ ["Strans"])) order) (h3 : c2.solve lib order = .ok c3)
    {src : Source} (hs : c2.source = some src) {kp : ℝ × ℝ} (hkp : src.kp = (↑kp.1, ↑kp.2)) :
    ∃ Ms, TwistedEquations lib.jv1 lhs rhs (orderKx se.exp kp wl) (orderKy se.exp kp wl) (2 * Real.pi / wl) Ls Ms ∧
      ∀ a b : Vec2 (M * M), ∃! o : Vec2 (M * M) × Vec2 (M * M), MaxwellChain Ms
        (outerField (orderKx se.exp kp wl) (orderKy se.exp kp wl) er ⟨a, o.1⟩)
        (outerField (orderKx se.exp kp wl) (orderKy se.exp kp wl) et ⟨o.2, b⟩) := by
  obtain ⟨st, Ms, -, hM, h⟩ := C85_maxwell he hse hc h1 h2 ho h3 hs hkp
  refine ⟨Ms, hM, fun a b => ⟨(st.Stot.s11 *ᵥ a + st.Stot.s12 *ᵥ b, st.Stot.s21 *ᵥ a + st.Stot.s22 *ᵥ b),
    (h _ _).1 ⟨rfl, rfl⟩, ?_⟩⟩
  rintro ⟨o1, o2⟩ ho
  obtain ⟨e1, e2⟩ := (h _ _).2 ho
  exact Prod.ext e1 e2

theorem twisted_energy (he : ∀ n, EigContract (lib.eig n)) (hl : Built lhs) (hr : Built rhs)
    (hse : lhs.add tag rhs = .ok se) (hc : TwistedDevice se c stack m Ls er et)
    (h1 : c.setDevice stack m = .ok c1) (h2 : c1.setSource wl te tm theta phi kpo = .ok c2)
    (ho : SetOrder ("Sref" :: (stack ++ ["Strans"])) order) (h3 : c2.solve lib order = .ok c3)
    (hwl : 0 < wl) {src : Source} (hs : c2.source = some src) {kp : ℝ × ℝ}
    (hkp : src.kp = (↑kp.1, ↑kp.2))
    (hcut : (kp.1 = 0 ∧ kp.2 = 0) ∨ (1 / 10 ^ 8) ^ 2 ≤ kp.1 ^ 2 + kp.2 ^ 2)
    {f : Crystal.Fluxes (M * M)} (hf : c3.poyntingFluxEnd = .ok f) :
    ∃ (Ms : List (Mat2 (M * M) × Mat2 (M * M) × ℝ)) (F G : Tang (Fin (M * M) ⊕ Fin (M * M))) (κ : ℝ), 0 < κ ∧
      TwistedEquations lib.jv1 lhs rhs (orderKx se.exp kp wl) (orderKy se.exp kp wl) (2 * Real.pi / wl) Ls Ms ∧
      MaxwellChain Ms F G ∧ fluxZ F = κ * (1 - f.R) ∧ fluxZ G = κ * f.T ∧ ¬(F.E = 0 ∧ F.H = 0) := by
  obtain ⟨lr, lt, As, k, hAs, hd, hexp, hi, hie, hsrc⟩ := twisted_device hc h1 h2
  have hcen : Centered c2.expansion := by
    rw [hexp]
    obtain ⟨hodd, hmid⟩ := C25_specular_middle (Built.add hl hr hse)
    exact ⟨Nat.odd_iff.1 hodd, fun i hi => hmid i (by rw [Nat.odd_iff] at hodd; omega)⟩
  obtain ⟨src', kxc, kyc, W0, V0, rr, As', Ss, rt, st, h⟩ := anySolved hd ho h3
  have hs' := h.source
  rw [hs, Option.some.injEq] at hs'
  subst hs'
  rw [hs, Option.some.injEq] at hsrc
  have hw : src.wavelength = wl := by rw [hsrc]
  have hks : src.kp = k := by rw [hsrc]
  have hkz : src.kzi = star (csqrt (((2 * Real.pi / wl : ℝ) : ℂ) ^ 2 * er - k.1 ^ 2 - k.2 ^ 2)) := by
    rw [hsrc]
  obtain ⟨inc, i0, p, q, hi0, hx, hy, hinc, hp, hq, hsc, hpos, hF, hG⟩ :=
    any_balance hcen hd hi hie h hkp (by rw [hw]; exact hwl) hf
  obtain ⟨st', Ms, hst, hM, hch⟩ := C85_maxwell he hse hc h1 h2 ho h3 hs hkp
  rw [h.rest', Option.some.injEq] at hst
  rw [← hst] at hch
  rw [hexp, hw] at hx hy hpos hF hG
  rw [hkp] at hinc hks
  rw [← hks] at hkz
  have hk0 : 0 < 2 * Real.pi / wl := by have := Real.pi_pos; positivity
  rw [incident_waveNorm hk0 hi0 hx hy hpos hkz hcut hinc] at hF
  refine ⟨Ms, _, _, _, Real.sqrt_pos.2 hpos, hM, (hch p q).1 hsc, hF, hG, fun hz => ?_⟩
  obtain ⟨rfl, rfl⟩ := h.real hkp
  obtain ⟨-, -, -, hor⟩ := halfSpaceModes_outer h.ref_modes
  obtain ⟨dW, dV⟩ := halfSpaceModes_det h.er_ne h.ref_modes
  rw [hexp, hw] at hor
  have hp0 : p = ⟨0, 0⟩ := by
    refine fieldOf_injective dW dV ?_
    rw [hor]
    apply Tang.ext
    · rw [hz.1]; simp [fieldOf]
    · rw [hz.2]; simp [fieldOf]
  have := incident_waveNorm hk0 hi0 hx hy hpos hkz hcut hinc
  rw [← hp, hp0] at this
  simp [waveNorm] at this

/-- **C85.** Energy conservation in twisted stacks: `R + T = 1` when no layer of either lattice has losses. -/
theorem C85_energy (he : ∀ n, EigContract (lib.eig n)) (hl : Built lhs) (hr : Built rhs)
    (hse : lhs.add tag rhs = .ok se) (hc : TwistedDevice se c stack m Ls er et) (hL : ∀ l ∈ Ls, l.lossless)
    (h1 : c.setDevice stack m = .ok c1) (h2 : c1.setSource wl te tm theta phi kpo = .ok c2)
    (ho : SetOrder ("Sref" :: (stack ++ ["Strans"])) order) (h3 : c2.solve lib order = .ok c3)
    (hwl : 0 < wl) {src : Source} (hs : c2.source = some src) {kp : ℝ × ℝ}
    (hkp : src.kp = (↑kp.1, ↑kp.2))
    (hcut : (kp.1 = 0 ∧ kp.2 = 0) ∨ (1 / 10 ^ 8) ^ 2 ≤ kp.1 ^ 2 + kp.2 ^ 2)
    {f : Crystal.Fluxes (M * M)} (hf : c3.poyntingFluxEnd = .ok f) : f.R + f.T = 1 := by
  obtain ⟨Ms, F, G, κ, hκ, hM, hch, hF, hG, -⟩ := twisted_energy he hl hr hse hc h1 h2 ho h3 hwl hs hkp hcut hf
  have := twisted_flux_eq hM (fun l hl C hC => TwistedLayer.lossless_perm (hL l hl) hC) hch
  rw [hF, hG] at this
  have := mul_left_cancel₀ hκ.ne' this
  linarith

/-- **C85.** `R + T ≤ 1` when layers of non-negative depth absorb. -/
theorem C85_absorbed (he : ∀ n, EigContract (lib.eig n)) (hl : Built lhs) (hr : Built rhs)
    (hse : lhs.add tag rhs = .ok se) (hc : TwistedDevice se c stack m Ls er et)
    (hL : ∀ l ∈ Ls, 0 ≤ l.depth ∧ l.absorbing lib.jv1 lhs rhs)
    (h1 : c.setDevice stack m = .ok c1) (h2 : c1.setSource wl te tm theta phi kpo = .ok c2)
    (ho : SetOrder ("Sref" :: (stack ++ ["Strans"])) order) (h3 : c2.solve lib order = .ok c3)
    (hwl : 0 < wl) {src : Source} (hs : c2.source = some src) {kp : ℝ × ℝ}
    (hkp : src.kp = (↑kp.1, ↑kp.2))
    (hcut : (kp.1 = 0 ∧ kp.2 = 0) ∨ (1 / 10 ^ 8) ^ 2 ≤ kp.1 ^ 2 + kp.2 ^ 2)
    {f : Crystal.Fluxes (M * M)} (hf : c3.poyntingFluxEnd = .ok f) : f.R + f.T ≤ 1 := by
  obtain ⟨Ms, F, G, κ, hκ, hM, hch, hF, hG, -⟩ := twisted_energy he hl hr hse hc h1 h2 ho h3 hwl hs hkp hcut hf
  have hk0 : 0 < 2 * Real.pi / wl := by have := Real.pi_pos; positivity
  have := twisted_flux_le hM (fun l hl => ⟨mul_nonneg (hL l hl).1 hk0.le,
    fun C hC => TwistedLayer.absorbing_perm (hL l hl).2 hC⟩) hch
  rw [hF, hG] at this
  have := le_of_mul_le_mul_left this hκ
  linarith

/-- **C85.** `add_layer(name, layer, extended=True)` registers the layer of either lattice under the name given, and
leaves the other layers and the rest of the crystal as they were; a layer of neither lattice is refused. -/
theorem C85_registered (c : Crystal (M * M)) (se : SumExpansion M) (name : String) (l : Layer M)
    (hl : l.form.isLayer) :
    (l.expansion = se.lhs → ∃ c', c.addExtended se name l = .ok c' ∧ TwistedLayer.Registered se c' name (.first l) ∧
      (∀ y, y ≠ name → c'.layers y = c.layers y) ∧ { c' with layers := c.layers } = c) ∧
    (l.expansion = se.rhs → ∃ c', c.addExtended se name l = .ok c' ∧ TwistedLayer.Registered se c' name (.second l) ∧
      (∀ y, y ≠ name → c'.layers y = c.layers y) ∧ { c' with layers := c.layers } = c) ∧
    (l.expansion.tag ≠ se.lhs.tag → l.expansion.tag ≠ se.rhs.tag → c.addExtended se name l = .error .notImplemented) := by
  have key : ∀ a, ExtLayer.make se l = .ok a → ∃ c', c.addExtended se name l = .ok c' ∧
      c'.layers name = some (.ext a) ∧ (∀ y, y ≠ name → c'.layers y = c.layers y) ∧ { c' with layers := c.layers } = c := by
    intro a ha
    refine ⟨c.setLayer name (.ext a), by rw [Crystal.addExtended, ha]; rfl, by simp [Crystal.setLayer], ?_, rfl⟩
    intro y hy
    simp [Crystal.setLayer, Function.update_of_ne hy]
  refine ⟨fun h => ?_, fun h => ?_, fun h1 h2 => ?_⟩
  · obtain ⟨a, ha⟩ : ∃ a, ExtLayer.make se l = .ok a := by
      rw [ExtLayer.make, if_pos (by rw [h])]
      exact ⟨_, rfl⟩
    obtain ⟨c', h1, h2, h3⟩ := key a ha
    exact ⟨c', h1, ⟨h, hl, a, ha, h2⟩, h3⟩
  · obtain ⟨a, ha⟩ : ∃ a, ExtLayer.make se l = .ok a := by
      rw [ExtLayer.make]
      split
      · exact ⟨_, rfl⟩
      · rw [if_pos (by rw [h])]
        exact ⟨_, rfl⟩
    obtain ⟨c', h1, h2, h3⟩ := key a ha
    exact ⟨c', h1, ⟨h, hl, a, ha, h2⟩, h3⟩
  · rw [Crystal.addExtended, ExtLayer.make, if_neg (Ne.symm h1), if_neg (Ne.symm h2)]
    rfl

/-- Non-vacuity of C85: a layer of each of two 3×3 lattices, of periods 1 and 1/2, added with `extended=True` and stacked
with 81 joint orders. -/
example : ∃ (lhs rhs : Expansion 9) (se : SumExpansion 9) (b c c1 c2 c3 : Crystal (9 * 9)) (src : Source)
    (order : List String) (f : Crystal.Fluxes (9 * 9)), Built lhs ∧ Built rhs ∧ lhs.add 2 rhs = .ok se ∧
    Crystal.addExtended { expansion := se.exp, layers := fun _ => none } se "a" (Layer.uniform lhs 1 1) = .ok b ∧
    b.addExtended se "b" (Layer.uniform rhs 1 2) = .ok c ∧
    TwistedDevice se c ["a", "b"] (.inl true) [.first (Layer.uniform lhs 1 1), .second (Layer.uniform rhs 1 2)]
      ((1 : ℝ) : ℂ) ((1 : ℝ) : ℂ) ∧
    c.setDevice ["a", "b"] (.inl true) = .ok c1 ∧ c1.setSource 4 1 0 0 0 none = .ok c2 ∧
    c2.source = some src ∧ src.kp = (((0 : ℝ) : ℂ), ((0 : ℝ) : ℂ)) ∧
    SetOrder ("Sref" :: (["a", "b"] ++ ["Strans"])) order ∧
    c2.solve exampleLib order = .ok c3 ∧ c3.poyntingFluxEnd = .ok f ∧ f.R + f.T = 1 := by
  obtain ⟨lhs, rhs, se, a, b, c, c1, c2, c3, f, hl, hr, hse, rfl, hb, hcc, hc, h1, h2, ⟨src, hs, hk⟩, ho, h3, hf, -⟩ :=
    twisted_run exampleLib
  have hL : ∀ l ∈ [TwistedLayer.first (Layer.uniform lhs 1 1), .second (Layer.uniform rhs 1 2)], l.lossless := by
    simp [TwistedLayer.lossless, Layer.uniform, Form.lossless]
  exact ⟨lhs, rhs, se, b, c, c1, c2, c3, src, _, f, hl, hr, hse, hb, hcc, hc, h1, h2, hs, hk, ho, h3, hf,
    C85_energy exampleLib_contract hl hr hse hc hL h1 h2 ho h3 four_pos hs (kp := (0, 0)) hk (Or.inl ⟨rfl, rfl⟩) hf⟩

end

end Khepri
