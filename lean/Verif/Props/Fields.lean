import Verif.Lemmas.FieldsReal
import Verif.Lemmas.FieldsSource
import Verif.Lemmas.ExampleOblique
import Mathlib.Analysis.Normed.Algebra.MatrixExponential

/-!
# Properties C34–C37, C58: fields inside a device
-/

namespace Khepri

open Matrix

variable {N : ℕ}

section
variable {lib : NumLib} {order : List String} {c c1 c2 c3 : Crystal N} {stack : List String}
  {m : Bool ⊕ List Bool} {Ls : List (Layer N)} {er et : ℝ} {wl : ℝ} {te tm : ℂ} {theta phi : ℝ}
  {kpo : Option (ℂ × ℂ)}

/-! ### C34 -/

/-- **C34 (partial).** Between media of real permittivity and for real in-plane wave vectors, whatever the
incident waves `a`: there is exactly one field, a function of depth, that obeys Maxwell's equations inside
every medium, is continuous at the interfaces and contains no incoming wave but `a`; and the transverse
Fourier components returned at every depth where fields were requested are those of this field, up to the
end of the device, and beyond it when the emergence medium is vacuum, as long as no propagator used exceeds
the bound of the code.  Missing: emergence media other than vacuum, for which it is false
(`C34_emergence_counterexample`), and propagators above the bound. -/
theorem C34_fields_partial (he : EigContract (lib.eig N)) (hc : FreshDevice c stack m Ls er et)
    (h1 : c.setDevice stack m = .ok c1) (h2 : c1.setSource wl te tm theta phi kpo = .ok c2)
    (ho : SetOrder ("Sref" :: (stack ++ ["Strans"])) order) (h3 : c2.solve lib order = .ok c3)
    {src : Source} (hs : c2.source = some src) {kp : ℝ × ℝ} (hkp : src.kp = (↑kp.1, ↑kp.2))
    (hpos : ∀ l ∈ Ls, 0 ≤ l.depth) :
    ∃ Ms, LayerEquations lib.jv1 c.expansion (orderKx c.expansion kp wl) (orderKy c.expansion kp wl)
        (2 * Real.pi / wl) Ls Ms ∧
      ∀ a : Vec2 N, ∃ Φ, DeviceSolution (orderKx c.expansion kp wl) (orderKy c.expansion kp wl) er et
          (2 * Real.pi / wl) Ms (Ls.map Layer.depth) a Φ ∧
        (∀ Ψ, DeviceSolution (orderKx c.expansion kp wl) (orderKy c.expansion kp wl) er et
          (2 * Real.pi / wl) Ms (Ls.map Layer.depth) a Ψ → Ψ = Φ) ∧
        ∀ z, RequestedAt (Ls.map Layer.depth) (Crystal.maskList stack m) z → Unclamped c3 z →
          (z ≤ (Ls.map Layer.depth).sum ∨ et = 1) → ∀ b E H,
          outerField (orderKx c.expansion kp wl) (orderKy c.expansion kp wl) er ⟨a, b⟩ = ⟨E, H⟩ →
          ∃ f, c3.fourierFields z E H = .ok f ∧ f.transverse = Φ z := by
  obtain ⟨-, -, -, Ms, hM, hA⟩ := fields_core he hc h1 h2 ho h3 hs hkp hpos
  refine ⟨Ms, hM, fun a => ?_⟩
  obtain ⟨Φ, hΦ, hU, hQ⟩ := hA a
  refine ⟨Φ, hΦ, hU, fun z hz hu hD b E H hE => ?_⟩
  obtain ⟨f, f1, f2, f3, -⟩ := hQ z hz hu b E H hE
  refine ⟨f, f1, ?_⟩
  rcases le_or_gt z (Ls.map Layer.depth).sum with hzD | hzD
  · exact f2 hzD
  · obtain rfl := hD.resolve_left (not_le.2 hzD)
    obtain ⟨t, ht⟩ := hΦ.outgoing
    exact (f3 hzD t ht).2 rfl

/-- **C34 (partial)**, beyond the device: the components returned in the emergence medium are right exactly
when its transmitted waves have in vacuum the same tangential field as in that medium. -/
theorem C34_emergence_partial (he : EigContract (lib.eig N)) (hc : FreshDevice c stack m Ls er et)
    (h1 : c.setDevice stack m = .ok c1) (h2 : c1.setSource wl te tm theta phi kpo = .ok c2)
    (ho : SetOrder ("Sref" :: (stack ++ ["Strans"])) order) (h3 : c2.solve lib order = .ok c3)
    {src : Source} (hs : c2.source = some src) {kp : ℝ × ℝ} (hkp : src.kp = (↑kp.1, ↑kp.2))
    (hpos : ∀ l ∈ Ls, 0 ≤ l.depth) :
    ∃ Ms, LayerEquations lib.jv1 c.expansion (orderKx c.expansion kp wl) (orderKy c.expansion kp wl)
        (2 * Real.pi / wl) Ls Ms ∧
      ∀ (a : Vec2 N) Φ, DeviceSolution (orderKx c.expansion kp wl) (orderKy c.expansion kp wl) er et
          (2 * Real.pi / wl) Ms (Ls.map Layer.depth) a Φ →
        ∀ z, (Ls.map Layer.depth).sum < z → Unclamped c3 z → ∀ b E H,
          outerField (orderKx c.expansion kp wl) (orderKy c.expansion kp wl) er ⟨a, b⟩ = ⟨E, H⟩ →
          ∃ f, c3.fourierFields z E H = .ok f ∧ ∀ t, Φ (Ls.map Layer.depth).sum =
              outerField (orderKx c.expansion kp wl) (orderKy c.expansion kp wl) et ⟨t, 0⟩ →
              (f.transverse = Φ z ↔ outerField (orderKx c.expansion kp wl) (orderKy c.expansion kp wl) 1 ⟨t, 0⟩ =
                outerField (orderKx c.expansion kp wl) (orderKy c.expansion kp wl) et ⟨t, 0⟩) := by
  obtain ⟨-, -, -, Ms, hM, hA⟩ := fields_core he hc h1 h2 ho h3 hs hkp hpos
  refine ⟨Ms, hM, fun a Φ hΦ z hz hu b E H hE => ?_⟩
  obtain ⟨Φ', hΦ', hU, hQ⟩ := hA a
  obtain rfl := hU Φ hΦ
  obtain ⟨f, f1, f2, f3, -⟩ := hQ z (.inr (.inl hz)) hu b E H hE
  exact ⟨f, f1, f3 hz⟩

end

/-- **C34**, continuity: the field of a device is a continuous function of depth, interfaces included. -/
theorem C34_continuous {kx ky : Fin N → ℝ} {er et k0 : ℝ} {Ms : List (Mat2 N × Mat2 N × ℝ)} {ds : List ℝ}
    {a : Vec2 N} {Φ : ℝ → Tang (Fin N ⊕ Fin N)} (hl : Ms.length = ds.length) (hd : ∀ d ∈ ds, 0 ≤ d)
    (h : DeviceSolution kx ky er et k0 Ms ds a Φ) :
    Continuous (fun z => (Φ z).E) ∧ Continuous (fun z => (Φ z).H) :=
  h.field.continuous hl hd

/-- **C34** is false beyond a device that ends in a medium other than vacuum: behind the plate, in a medium
of permittivity 4, the components returned at depth 5/4 are not those of the field. -/
theorem C34_emergence_counterexample : ∃ (c c1 c2 c3 : Crystal 1) (Ls : List (Layer 1)) (src : Source)
    (Ms : List (Mat2 1 × Mat2 1 × ℝ)) (a E H : Vec2 1) (Φ : ℝ → Tang (Fin 1 ⊕ Fin 1)) (f : Fields6 1),
    FreshDevice c ["a"] (.inl true) Ls ((1 : ℝ) : ℂ) ((2 ^ 2 : ℝ) : ℂ) ∧
    c.setDevice ["a"] (.inl true) = .ok c1 ∧ c1.setSource 1 1 0 0 0 none = .ok c2 ∧
    c2.solve exampleLib ["Sref", "a", "Strans"] = .ok c3 ∧ c2.source = some src ∧ src.kp = (0, 0) ∧
    LayerEquations exampleLib.jv1 c.expansion (orderKx c.expansion 0 1) (orderKy c.expansion 0 1)
      (2 * Real.pi / 1) Ls Ms ∧
    DeviceSolution (orderKx c.expansion 0 1) (orderKy c.expansion 0 1) 1 (2 ^ 2) (2 * Real.pi / 1) Ms
      (Ls.map Layer.depth) a Φ ∧
    outerField (orderKx c.expansion 0 1) (orderKy c.expansion 0 1) 1 ⟨a, 0⟩ = ⟨E, H⟩ ∧
    c3.fourierFields (5 / 4) E H = .ok f ∧ f.transverse ≠ Φ (5 / 4) := by
  obtain ⟨c1, c2, c3, h1, h2, hs, ho, h3, -, -, -, hu⟩ := example_fields two_pos true
  have hkp : exampleSource.kp = (((0 : ℝ × ℝ).1 : ℂ), ((0 : ℝ × ℝ).2 : ℂ)) := by simp [exampleSource]
  obtain ⟨-, -, -, Ms, hM, hA⟩ := fields_core (exampleLib_contract 1) (example_fresh 2 true) h1 h2 ho h3 hs hkp
    (by simp [Layer.uniform])
  obtain ⟨Φ, hΦ, -, hQ⟩ := hA (fun _ => 1)
  have hsum : (List.map Layer.depth [Layer.uniform exampleExpansion 4 (1 / 4)]).sum = 1 / 4 := by
    simp [Layer.uniform]
  obtain ⟨f, hf, -, f3, -⟩ := hQ (5 / 4) (.inr (.inl (by rw [hsum]; norm_num))) (hu _) 0 _ _ rfl
  obtain ⟨t, ht⟩ := hΦ.outgoing
  refine ⟨_, c1, c2, c3, _, _, Ms, _, _, _, Φ, f, example_fresh 2 true, h1, h2, h3, hs, by simp [exampleSource], hM,
    hΦ, rfl, hf, fun hEq => ?_⟩
  have h := (f3 (by rw [hsum]; norm_num) t ht).1 hEq
  have ht0 : t = 0 := by
    have n1 := normal_outer (example_kx0 1) (example_ky0 1) 1 (⟨t, 0⟩ : Port (Fin 1 ⊕ Fin 1))
    have n4 := normal_outer (example_kx0 1) (example_ky0 1) (2 ^ 2) (⟨t, 0⟩ : Port (Fin 1 ⊕ Fin 1))
    have h : outerField (orderKx exampleExpansion 0 1) (orderKy exampleExpansion 0 1) 1 ⟨t, 0⟩ =
      outerField (orderKx exampleExpansion 0 1) (orderKy exampleExpansion 0 1) (2 ^ 2) ⟨t, 0⟩ := h
    rw [h] at n1
    have k1 : outerKz (1 : ℝ) = 1 := by have := outerKz_sq_pos one_pos; simpa using this
    have k4 := outerKz_sq_pos two_pos
    have key : ∀ x : ℂ, ((1 : ℝ) : ℂ) * ((0 - x) / (Complex.I * outerKz 1)) =
        ((2 ^ 2 : ℝ) : ℂ) * ((0 - x) / (Complex.I * outerKz (2 ^ 2))) → x = 0 := by
      intro x hx
      rw [k1, k4] at hx
      have hI := Complex.I_ne_zero
      push_cast at hx
      field_simp at hx
      have : x * 1 = 0 := by linear_combination hx
      simpa using this
    funext j
    rcases j with j | j
    · exact key _ (neg_injective ((n1 j).2.symm.trans (n4 j).2))
    · exact key _ ((n1 j).1.symm.trans (n4 j).1)
  have := example_transmits (d := 1 / 4) (by norm_num) hM.length_eq.symm hΦ ht ht0
  simpa using congrFun this (.inl 0)

/-- The hypotheses of C34 are met by the example plate, and its fields are those of the solution at every depth
up to the end of the plate. -/
example : ∃ c1 c2 c3, (exampleCrystal 2).setDevice ["a"] (.inl true) = .ok c1 ∧
    c1.setSource 1 1 0 0 0 none = .ok c2 ∧ c2.solve exampleLib ["Sref", "a", "Strans"] = .ok c3 ∧
    ∀ z, z ≤ 1 / 4 → ∀ E H, ∃ f, c3.fourierFields z E H = .ok f := by
  obtain ⟨c1, c2, c3, h1, h2, hs, ho, h3, -, -, -, hu⟩ := example_fields two_pos true
  refine ⟨c1, c2, c3, h1, h2, h3, fun z hz E H => ?_⟩
  have hkp : exampleSource.kp = (((0 : ℝ × ℝ).1 : ℂ), ((0 : ℝ × ℝ).2 : ℂ)) := by simp [exampleSource]
  obtain ⟨-, -, hsurj, -⟩ := fields_core (exampleLib_contract 1) (example_fresh 2 true) h1 h2 ho h3 hs hkp
    (by simp [Layer.uniform])
  obtain ⟨a, b, hab⟩ := hsurj E H
  obtain ⟨Ms, -, hA⟩ := C34_fields_partial (exampleLib_contract 1) (example_fresh 2 true) h1 h2 ho h3 hs hkp
    (by simp [Layer.uniform])
  obtain ⟨Φ, -, -, hQ⟩ := hA a
  have hr : RequestedAt (List.map Layer.depth [Layer.uniform exampleExpansion 4 (1 / 4)])
      (Crystal.maskList ["a"] (.inl true)) z := by
    rcases le_or_gt z 0 with h0 | h0
    · exact .inl h0
    · refine .inr (.inr ⟨0, by simp [Crystal.maskList], ?_, ?_⟩)
      · simpa [startOf] using h0
      · simpa [startOf, Layer.uniform] using hz
  obtain ⟨f, hf, -⟩ := hQ z hr (hu z) (.inl (by simpa [Layer.uniform] using hz)) b E H hab
  exact ⟨f, hf⟩

/-! ### C35 -/

/-- **C35.** The Fourier components at a depth depend linearly on the incident fields, wherever the depth is and
whether or not propagators are clamped. -/
theorem C35_linear (c : Crystal N) (z : ℝ) {E1 H1 E2 H2 : Vec2 N} {f1 f2 : Fields6 N}
    (h1 : c.fourierFields z E1 H1 = .ok f1) (h2 : c.fourierFields z E2 H2 = .ok f2) (a b : ℂ) :
    c.fourierFields z (a • E1 + b • E2) (a • H1 + b • H2) = .ok (Fields6.comb a f1 b f2) := by
  rcases fourierFields_lin c z with ⟨e, he⟩ | ⟨L, hL, hl⟩
  · have := he (E1, H1)
    simp only [h1] at this
    cases this
  · have k1 := hL (E1, H1)
    have k2 := hL (E2, H2)
    have k3 := hL (a • (E1, H1) + b • (E2, H2))
    simp only [h1, Except.ok.injEq] at k1
    simp only [h2, Except.ok.injEq] at k2
    rw [hl, ← k1, ← k2] at k3
    exact k3

/-- **C35.** So do the six components at every point, with the incident fields given. -/
theorem C35_real (c : Crystal N) (x y z : ℝ) (kpo : Option (ℂ × ℂ)) {v w : Vec2 N × Vec2 N} {p q : Crystal.Point6}
    (h1 : c.fieldsAt x y z (some v) kpo = .ok p) (h2 : c.fieldsAt x y z (some w) kpo = .ok q) (a b : ℂ) :
    c.fieldsAt x y z (some (a • v.1 + b • w.1, a • v.2 + b • w.2)) kpo = .ok (Crystal.Point6.comb a p b q) := by
  rcases fieldsAt_lin c x y z kpo with ⟨e, he⟩ | ⟨L, hL, hl⟩
  · have := he v
    simp only [h1] at this
    cases this
  · have k1 := hL v
    have k2 := hL w
    have k3 := hL (a • v + b • w)
    simp only [h1, Except.ok.injEq] at k1
    simp only [h2, Except.ok.injEq] at k2
    rw [hl, ← k1, ← k2] at k3
    exact k3

/-- **C35.** Whether the fields at a point can be computed, and the exception raised if not, does not depend on
the incident fields given. -/
theorem C35_same_errors (c : Crystal N) (x y z : ℝ) (kpo : Option (ℂ × ℂ)) (v w : Vec2 N × Vec2 N) (e : PyErr) :
    c.fieldsAt x y z (some v) kpo = .error e ↔ c.fieldsAt x y z (some w) kpo = .error e := by
  rcases fieldsAt_lin c x y z kpo with ⟨e', he⟩ | ⟨L, hL, -⟩
  · have k1 := he v
    have k2 := he w
    simp only at k1 k2
    rw [k1, k2]
  · have k1 := hL v
    have k2 := hL w
    simp only at k1 k2
    rw [k1, k2]
    simp

/-- Fields can be computed: the example plate. -/
example : ∃ c : Crystal 1, ∀ v, ∃ p, c.fieldsAt 0 0 (-1) (some v) none = .ok p := by
  obtain ⟨c1, c2, c3, h1, h2, hs, ho, h3, hs3, hst, hexp, hu⟩ := example_fields two_pos true
  have hkp : exampleSource.kp = (((0 : ℝ × ℝ).1 : ℂ), ((0 : ℝ × ℝ).2 : ℂ)) := by simp [exampleSource]
  obtain ⟨-, -, hsurj, Ms, -, hA⟩ := fields_core (exampleLib_contract 1) (example_fresh 2 true) h1 h2 ho h3 hs hkp
    (by simp [Layer.uniform])
  refine ⟨c3, fun v => ?_⟩
  obtain ⟨a, b, hab⟩ := hsurj v.1 v.2
  obtain ⟨Φ, -, -, hQ⟩ := hA a
  obtain ⟨f, hf, -⟩ := hQ (-1) (.inl (by norm_num)) (hu _) b v.1 v.2 hab
  exact ⟨_, fieldsAt_eq_ok.2 ⟨hst, exampleSource, v, f, hs3, rfl, by simp [exampleSource], hf, rfl⟩⟩

/-! ### C36 -/

/-- **C36.** Bloch's theorem: displacing the point by a period `a` of the expansion multiplies the six components
by `exp(i k · a)`, `k` being the in-plane wave vector used; an exception stays the same. -/
theorem C36_bloch (c : Crystal N) {a : ℝ × ℝ} (ha : IsPeriod c.expansion a) (x y z : ℝ)
    (inc : Option (Vec2 N × Vec2 N)) (kpo : Option (ℂ × ℂ)) {src : Source} (hs : c.source = some src) :
    c.fieldsAt (x + a.1) (y + a.2) z inc kpo = (c.fieldsAt x y z inc kpo).map
      (Crystal.Point6.scale (Complex.exp (Complex.I * ((kpo.getD src.kp).1 * a.1 + (kpo.getD src.kp).2 * a.2)))) := by
  rw [fieldsAt_eq, fieldsAt_eq]
  simp only [hs, Crystal.attr, ok_bind]
  cases pyCheck (c.stacked.isSome = true) PyErr.assertion with
  | error e => rfl
  | ok _ =>
    cases Crystal.orDefault inc c.sourceFields with
    | error e => rfl
    | ok EH =>
      cases c.expansion.kVectors (kpo.getD src.kp) src.wavelength 1 with
      | error e => rfl
      | ok k =>
        simp only [ok_bind]
        cases c.fourierFields z EH.1 EH.2 with
        | error e => rfl
        | ok f =>
          simp only [ok_bind, pure, Except.pure, Except.map, pointOf_shift ha]

/-- **C36.** The whole-number combinations of the lattice vectors are periods of the expansion made from them. -/
theorem C36_lattice {tag : ℕ} {pw : ℕ × ℕ} {lat : R2 × R2} {e : Expansion (pw.1 * pw.2)}
    (h : Expansion.make tag pw lat = .ok e) (p q : ℤ) :
    IsPeriod e (p * lat.1.1 + q * lat.2.1, p * lat.1.2 + q * lat.2.2) := by
  obtain ⟨l, -, hg⟩ := C22_gvectors h
  intro i
  obtain ⟨m, n, -, h1, h2⟩ := hg i
  refine ⟨p * m + q * n, ?_⟩
  simp only [dot2] at h1 h2
  push_cast
  linear_combination (p : ℝ) * h1 + (q : ℝ) * h2

/-- **C36.** Rotating an expansion rotates its periods. -/
theorem C36_rotate {e : Expansion N} {a : ℝ × ℝ} (ha : IsPeriod e a) (t : ℝ) : IsPeriod (e.rotate t) (rotate2 t a) := by
  intro i
  obtain ⟨n, hn⟩ := ha i
  refine ⟨n, ?_⟩
  simp only [Expansion.rotate, rotate2]
  have := Real.sin_sq_add_cos_sq t
  linear_combination hn + ((e.g i).1 * a.1 + (e.g i).2 * a.2) * this

/-- The unit square lattice has periods. -/
example : IsPeriod exampleExpansion (3, -2) := by
  intro i
  exact ⟨0, by simp [exampleExpansion]⟩

/-! ### C37 -/

section
variable {lib : NumLib} {order : List String} {c c1 c2 c3 : Crystal N} {stack : List String}
  {m : Bool ⊕ List Bool} {Ls : List (Layer N)} {er et : ℝ} {wl : ℝ} {te tm : ℂ} {theta phi : ℝ}
  {kpo : Option (ℂ × ℂ)}

/-- **C37 (partial).** The fields of the default source are those of an incident plane wave of *half* the
amplitude for which the fluxes are computed: the power they carry before the device is a quarter of `κ (1 - R)`,
and after it a quarter of `κ T`, where `R` and `T` are the fluxes reported and `κ` is the power of the incident
wave of unit length.  Missing: equality of the two amplitudes, which is false (`C37_counterexample`). -/
theorem C37_quarter_partial (he : EigContract (lib.eig N)) (hb : Built c.expansion) (hc : FreshDevice c stack m Ls er et)
    (h1 : c.setDevice stack m = .ok c1) (h2 : c1.setSource wl te tm theta phi kpo = .ok c2)
    (ho : SetOrder ("Sref" :: (stack ++ ["Strans"])) order) (h3 : c2.solve lib order = .ok c3)
    (hwl : 0 < wl) {src : Source} (hs : c2.source = some src) {kp : ℝ × ℝ} (hkp : src.kp = (↑kp.1, ↑kp.2))
    (hcut : (kp.1 = 0 ∧ kp.2 = 0) ∨ (1 / 10 ^ 8) ^ 2 ≤ kp.1 ^ 2 + kp.2 ^ 2)
    (hpos : ∀ l ∈ Ls, 0 ≤ l.depth) {f : Crystal.Fluxes N} (hf : c3.poyntingFluxEnd = .ok f) :
    ∃ inc, incident N te tm ⟨kp.1, kp.2, src.kzi⟩ = .ok inc ∧ c3.sourceFields = .ok (inc, 0) ∧
    ∃ Φ : ℝ → Tang (Fin N ⊕ Fin N),
      (∃ b, Φ 0 = outerField (orderKx c.expansion kp wl) (orderKy c.expansion kp wl) er ⟨(1 / 2 : ℂ) • inc, b⟩) ∧
      (∀ z, RequestedAt (Ls.map Layer.depth) (Crystal.maskList stack m) z → Unclamped c3 z →
        (z ≤ (Ls.map Layer.depth).sum ∨ et = 1) →
        ∃ F, c3.fourierFields z inc 0 = .ok F ∧ F.transverse = Φ z) ∧
      (∀ z ≤ 0, fluxZ (Φ z) = Real.sqrt (er - (kp.1 / (2 * Real.pi / wl)) ^ 2 - (kp.2 / (2 * Real.pi / wl)) ^ 2) / 4 *
        (1 - f.R)) ∧
      (∀ z, (Ls.map Layer.depth).sum ≤ z → fluxZ (Φ z) =
        Real.sqrt (er - (kp.1 / (2 * Real.pi / wl)) ^ 2 - (kp.2 / (2 * Real.pi / wl)) ^ 2) / 4 * f.T) :=
  source_flux he hb hc h1 h2 ho h3 hwl hs hkp hcut hpos hf

end

/-- **C37** is false: a half-wave plate in vacuum reflects nothing (`R = 0`), and the fields computed for the
default source at its entrance carry a quarter of the incident power. -/
theorem C37_counterexample : ∃ (c1 c2 c3 : Crystal 1) (f : Crystal.Fluxes 1) (E H : Vec2 1) (F : Fields6 1),
    (exampleCrystal 1).setDevice ["a"] (.inl true) = .ok c1 ∧ c1.setSource 1 1 0 0 0 none = .ok c2 ∧
    c2.solve exampleLib ["Sref", "a", "Strans"] = .ok c3 ∧ c3.poyntingFluxEnd = .ok f ∧ f.R = 0 ∧
    c3.sourceFields = .ok (E, H) ∧ c3.fourierFields 0 E H = .ok F ∧
    fluxZ F.transverse = 1 / 4 ∧ fluxZ F.transverse ≠ Real.sqrt 1 * (1 - f.R) := by
  obtain ⟨c1, c2, c3, st, h1, h2, hs, ho, h3, hst, hS, -⟩ := example_solve exampleLib one_pos true
  obtain ⟨c1', c2', c3', k1, k2, -, -, k3, -, -, -, hu⟩ := example_fields one_pos true
  obtain rfl := Except.ok.inj (h1.symm.trans k1)
  obtain rfl := Except.ok.inj (h2.symm.trans k2)
  obtain rfl := Except.ok.inj (h3.symm.trans k3)
  obtain ⟨c1', c2', c3', f, k1, k2, -, -, k3, hf⟩ := example_run exampleLib one_pos true
  obtain rfl := Except.ok.inj (h1.symm.trans k1)
  obtain rfl := Except.ok.inj (h2.symm.trans k2)
  obtain rfl := Except.ok.inj (h3.symm.trans k3)
  have hkp : exampleSource.kp = (((0 : ℝ × ℝ).1 : ℂ), ((0 : ℝ × ℝ).2 : ℂ)) := by simp [exampleSource]
  have hR : f.R = 0 := fluxEnd_no_reflection hf hst (by rw [hS]; simp)
  obtain ⟨inc, -, hE, Φ, -, hF, hf1, -⟩ := C37_quarter_partial (exampleLib_contract 1) exampleExpansion_built
    (example_fresh 1 true) h1 h2 ho h3 one_pos hs hkp (.inl ⟨rfl, rfl⟩) (by simp [Layer.uniform]) hf
  obtain ⟨F, hF1, hF2⟩ := hF 0 (.inl le_rfl) (hu 0) (.inl (by simp [Layer.uniform]))
  have hq : fluxZ F.transverse = 1 / 4 := by
    rw [hF2, hf1 0 le_rfl, hR]; simp
  refine ⟨c1, c2, c3, f, inc, 0, F, h1, h2, h3, hf, hR, hE, hF1, hq, ?_⟩
  rw [hq, hR]; norm_num

/-! ### C58 -/

section
variable {lib : NumLib} {order : List String} {c c1 c2 c3 : Crystal N} {stack : List String}
  {m : Bool ⊕ List Bool} {Ls : List (Layer N)} {er et : ℝ} {wl : ℝ} {te tm : ℂ} {theta phi : ℝ}
  {kpo : Option (ℂ × ℂ)}

/-- **C58 (partial).** Inside one medium the six Fourier components together obey Maxwell's six equations, for
fields that depend on the position in the plane by `exp(-i k · r)`.  Missing: the real-space fields, which are
summed with `exp(+i k · r)`. -/
theorem C58_fourier_partial (he : EigContract (lib.eig N)) (hc : FreshDevice c stack m Ls er et)
    (h1 : c.setDevice stack m = .ok c1) (h2 : c1.setSource wl te tm theta phi kpo = .ok c2)
    (ho : SetOrder ("Sref" :: (stack ++ ["Strans"])) order) (h3 : c2.solve lib order = .ok c3)
    {src : Source} (hs : c2.source = some src) {kp : ℝ × ℝ} (hkp : src.kp = (↑kp.1, ↑kp.2))
    (hpos : ∀ l ∈ Ls, 0 ≤ l.depth) {u v : ℝ} {C : Matrix (Fin N) (Fin N) ℂ}
    (hm : MediumBetween lib.jv1 c.expansion Ls er et u v C)
    (hz : ∀ z ∈ Set.Ioo u v, RequestedAt (Ls.map Layer.depth) (Crystal.maskList stack m) z ∧ Unclamped c3 z ∧
      (z ≤ (Ls.map Layer.depth).sum ∨ et = 1)) {E H : Vec2 N} {F : ℝ → Fields6 N}
    (hF : ∀ z ∈ Set.Ioo u v, c3.fourierFields z E H = .ok (F z)) :
    ∀ z ∈ Set.Ioo u v, CurlEquations (orderKx c.expansion kp wl) (orderKy c.expansion kp wl)
      (2 * Real.pi / wl) C F z :=
  curl_core he hc h1 h2 ho h3 hs hkp hpos hm hz hF

/-- **C58 (partial).** Inside a uniform medium the real-space fields, *read at the point mirrored in the plane*,
obey Maxwell's equations.  Missing: the fields read at the point itself, which do not
(`C58_counterexample`). -/
theorem C58_mirrored_partial (he : EigContract (lib.eig N)) (hc : FreshDevice c stack m Ls er et)
    (h1 : c.setDevice stack m = .ok c1) (h2 : c1.setSource wl te tm theta phi kpo = .ok c2)
    (ho : SetOrder ("Sref" :: (stack ++ ["Strans"])) order) (h3 : c2.solve lib order = .ok c3)
    {src : Source} (hs : c2.source = some src) {kp : ℝ × ℝ} (hkp : src.kp = (↑kp.1, ↑kp.2))
    (hpos : ∀ l ∈ Ls, 0 ≤ l.depth) {u v : ℝ} {eps : ℂ}
    (hm : MediumBetween lib.jv1 c.expansion Ls er et u v (eps • 1))
    (hz : ∀ z ∈ Set.Ioo u v, RequestedAt (Ls.map Layer.depth) (Crystal.maskList stack m) z ∧ Unclamped c3 z ∧
      (z ≤ (Ls.map Layer.depth).sum ∨ et = 1)) {E H : Vec2 N} {G : ℝ → ℝ → ℝ → Crystal.Point6}
    (hG : ∀ x y, ∀ z ∈ Set.Ioo u v, c3.fieldsAt x y z (some (E, H)) none = .ok (G x y z)) :
    ∀ x y, ∀ z ∈ Set.Ioo u v, RealMaxwell (2 * Real.pi / wl) eps (fun x y z => G (-x) (-y) z) x y z := by
  intro x y z hz0
  have hs3 : c3.source = some src := by rw [Crystal.solve_keeps_source h3, hs]
  obtain ⟨lr, lt, Ls', k, hd, hL, hexp, hi, hie, hwl', hk, hsrc, -⟩ := fresh_standard hc h1 h2
  have hs' := hsrc
  rw [hs, Option.some.injEq] at hs'
  have hw : src.wavelength = wl := by rw [hs']
  have hexp3 : c3.expansion = c.expansion := by
    obtain ⟨src', kxc, kyc, W0, V0, rr, rs, rt, st, h⟩ := solvedDevice hd ho h3
    rw [h.rest', hexp]
  have key : ∀ x y, ∀ z ∈ Set.Ioo u v, c3.fourierFields z E H = .ok (fourierAt c3 E H z) ∧
      G x y z = pointOf c.expansion src.kp (fourierAt c3 E H z) x y := by
    intro x y z hz
    obtain ⟨-, src', EH, f, e1, e2, -, e3, e4⟩ := fieldsAt_eq_ok.1 (hG x y z hz)
    rw [hs3, Option.some.injEq] at e1
    subst e1
    simp only [Crystal.orDefault, Except.ok.injEq] at e2
    subst e2
    rw [fourierAt_ok e3]
    refine ⟨e3, ?_⟩
    rw [e4, hexp3]; rfl
  have hcurl := C58_fourier_partial he hc h1 h2 ho h3 hs hkp hpos hm hz (fun z hz => (key 0 0 z hz).1) z hz0
  refine realMaxwell_of_curl hcurl x y fun x y => ?_
  have hk0 : ((2 * Real.pi / wl : ℝ) : ℂ) ≠ 0 := by
    have : (2 * Real.pi / wl : ℝ) ≠ 0 := div_ne_zero (by positivity) hwl'
    exact_mod_cast this
  filter_upwards [isOpen_Ioo.mem_nhds hz0] with z' hz'
  rw [(key (-x) (-y) z' hz').2]
  have e1 : (fun i => src.kp.1 + ((c.expansion.g i).1 : ℂ)) =
      fun i => ((2 * Real.pi / wl : ℝ) : ℂ) * (orderKx c.expansion kp wl i : ℂ) := by
    funext i
    have : ((orderKx c.expansion kp wl i : ℝ) : ℂ) = ((kp.1 + (c.expansion.g i).1 : ℝ) : ℂ) / ((2 * Real.pi / wl : ℝ) : ℂ) := by
      rw [orderKx, ← Complex.ofReal_div]
    rw [hkp, this, mul_div_cancel₀ _ hk0]; push_cast; rfl
  have e2 : (fun i => src.kp.2 + ((c.expansion.g i).2 : ℂ)) =
      fun i => ((2 * Real.pi / wl : ℝ) : ℂ) * (orderKy c.expansion kp wl i : ℂ) := by
    funext i
    have : ((orderKy c.expansion kp wl i : ℝ) : ℂ) = ((kp.2 + (c.expansion.g i).2 : ℝ) : ℂ) / ((2 * Real.pi / wl : ℝ) : ℂ) := by
      rw [orderKy, ← Complex.ofReal_div]
    rw [hkp, this, mul_div_cancel₀ _ hk0]; push_cast; rfl
  simp only [pointOf, e1, e2]

end

/-- **C58** is false: the fields of a plane wave crossing vacuum obliquely, as returned at each point, do not obey
Maxwell's equations, whichever the sign of the wave number. -/
theorem C58_counterexample : ∃ (c1 c2 c3 : Crystal 1) (E H : Vec2 1) (G : ℝ → ℝ → ℝ → Crystal.Point6),
    (exampleCrystal 1).setDevice [] (.inl true) = .ok c1 ∧
    c1.setSource 1 1 0 0 0 (some (((2 * Real.pi * (3 / 5) : ℝ) : ℂ), ((0 : ℝ) : ℂ))) = .ok c2 ∧
    c2.solve exampleLib ["Sref", "Strans"] = .ok c3 ∧
    (∀ x y z, c3.fieldsAt x y z (some (E, H)) none = .ok (G x y z)) ∧
    ∀ k0, k0 = 2 * Real.pi ∨ k0 = -(2 * Real.pi) → ¬ ∀ z ∈ Set.Ioo (-1) 0, RealMaxwell k0 1 G 0 0 z := by
  obtain ⟨c1, c2, c3, h1, h2, hs, ho, h3, hexp, hs3, -, -, hl, hg, st, hst, -⟩ :=
    empty_solve exampleLib (κ := 3 / 5) (by norm_num) 1 0 true
  have hu : ∀ z, Unclamped c3 z := empty_unclamped (κ := 3 / 5) (by norm_num) hl hg
  have hkp : (obliqueSource (3 / 5) 1 0).kp =
      ((((2 * Real.pi * (3 / 5), 0) : ℝ × ℝ).1 : ℂ), (((2 * Real.pi * (3 / 5), 0) : ℝ × ℝ).2 : ℂ)) := rfl
  obtain ⟨-, -, -, Ms, hM, hA⟩ := fields_core (exampleLib_contract 1) (empty_fresh true) h1 h2 ho h3 hs hkp (by simp)
  obtain ⟨Φ, hΦ, -, hQ⟩ := hA (fun _ => 1)
  have hreq : ∀ z : ℝ, RequestedAt (List.map Layer.depth ([] : List (Layer 1)))
      (Crystal.maskList [] (.inl true)) z := by
    intro z
    rcases le_or_gt z 0 with h0 | h0
    · exact .inl h0
    · exact .inr (.inl (by simpa using h0))
  set P := outerField (orderKx exampleExpansion (2 * Real.pi * (3 / 5), 0) 1)
    (orderKy exampleExpansion (2 * Real.pi * (3 / 5), 0) 1) 1 ⟨fun _ => 1, 0⟩ with hP
  have hF : ∀ z, c3.fourierFields z P.E P.H = .ok (fourierAt c3 P.E P.H z) ∧
      (z ≤ 0 → (fourierAt c3 P.E P.H z).transverse = Φ z) := by
    intro z
    obtain ⟨f, f1, f2, -⟩ := hQ z (hreq z) (hu z) 0 P.E P.H rfl
    rw [fourierAt_ok f1]
    exact ⟨f1, by simpa using f2⟩
  refine ⟨c1, c2, c3, P.E, P.H, fun x y z => pointOf exampleExpansion
    (((2 * Real.pi * (3 / 5) : ℝ) : ℂ), ((0 : ℝ) : ℂ)) (fourierAt c3 P.E P.H z) x y, h1, h2, h3, ?_, ?_⟩
  · intro x y z
    refine fieldsAt_eq_ok.2 ⟨by simp [hst], _, (P.E, P.H), _, hs3, rfl, by simp [obliqueSource], (hF z).1, ?_⟩
    rw [hexp]; rfl
  · intro k0 hk0 hall
    have hcurl := C58_fourier_partial (exampleLib_contract 1) (empty_fresh true) h1 h2 ho h3 hs hkp (by simp)
      (u := -1) (v := 0) (.inl ⟨le_rfl, rfl⟩)
      (fun z hz => ⟨hreq z, hu z, .inr rfl⟩) (fun z _ => (hF z).1)
    have huy : ∀ z ∈ Set.Ioo (-1 : ℝ) 0, (fourierAt c3 P.E P.H z).uy 0 = 0 := fun z hz =>
      oblique_fails (κ := 3 / 5) (by norm_num) (by norm_num) (hcurl z hz) (fun _ _ _ => rfl) hk0 (hall z hz)
    have hsx : ∀ z ∈ Set.Ioo (-1 : ℝ) 0, (fourierAt c3 P.E P.H z).sx 0 = 0 := by
      intro z hz
      have d := (hcurl z hz).hy 0
      have d0 : HasDerivAt (fun z => (fourierAt c3 P.E P.H z).uy 0) 0 z :=
        (hasDerivAt_const z (0 : ℂ)).congr_of_eventuallyEq (by
          filter_upwards [isOpen_Ioo.mem_nhds hz] with z' hz' using huy z' hz')
      have := d.unique d0
      simpa [oblique_ky, exampleCrystal, Real.pi_ne_zero] using this
    have hcont := C34_continuous hM.length_eq.symm (by simp) hΦ
    have lim : ∀ g : ℝ → ℂ, Continuous g → (∀ z ∈ Set.Ioo (-1 : ℝ) 0, g z = 0) → g 0 = 0 := by
      intro g hg hz
      have t1 : Filter.Tendsto g (nhdsWithin 0 (Set.Iio 0)) (nhds (g 0)) := hg.continuousWithinAt
      refine tendsto_nhds_unique t1 (tendsto_const_nhds.congr' ?_)
      filter_upwards [Ioo_mem_nhdsLT (show (-1 : ℝ) < 0 by norm_num)] with z hz' using (hz z hz').symm
    have e0 : (Φ 0).E (.inl 0) = 0 := lim (fun z => (Φ z).E (.inl 0)) ((continuous_apply _).comp hcont.1) (by
      intro z hz
      rw [← (hF z).2 hz.2.le]
      exact hsx z hz)
    have e1 : (Φ 0).H (.inr 0) = 0 := lim (fun z => (Φ z).H (.inr 0)) ((continuous_apply _).comp hcont.2) (by
      intro z hz
      rw [← (hF z).2 hz.2.le]
      exact huy z hz)
    obtain ⟨b, hb⟩ := hΦ.incident
    rw [hb] at e0 e1
    simp only [exampleCrystal] at e0 e1
    rw [oblique_outer] at e1
    simp only [outerField, Pi.add_apply] at e0
    have hk : outerKz (1 - (3 / 5 : ℝ) ^ 2) ≠ 0 := by
      rw [Ne, outerKz_eq_zero]; norm_num
    have e2 : b (.inl 0) - 1 = 0 := by simpa [hk] using e1
    have : (2 : ℂ) = 0 := by linear_combination e0 - e2
    norm_num at this

end Khepri
