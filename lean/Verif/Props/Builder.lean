import Verif.Lemmas.Builder
import Verif.Lemmas.SetDevice
import Verif.Props.Multilayer
import Mathlib.Analysis.SpecialFunctions.Trigonometric.Bounds

/-!
# Property C71: building a crystal
-/

namespace Khepri

open Crystal

/-- **C71.** A lattice can be asked by name: the call succeeds exactly for the two names known, a pitch that is not zero
and odd numbers of orders. -/
theorem C71_accepts_name (tag : ℕ) (pw : ℕ × ℕ) (s : String) (pitch : ℝ) (void : Bool) (epsi epse : ℂ) :
    (∃ c, Crystal.create tag pw (.name s) pitch void epsi epse = .ok c) ↔
      Odd pw.1 ∧ Odd pw.2 ∧ pitch ≠ 0 ∧ (s = "square" ∨ s = "hexagonal") := by
  have h3 : Real.sqrt 3 ≠ 0 := by positivity
  rw [Nat.odd_iff, Nat.odd_iff]
  constructor
  · rintro ⟨c, h⟩
    obtain ⟨lat, e, h1, h2, -⟩ := create_eq_ok.1 h
    obtain ⟨o1, o2, b, hb, -⟩ := make_eq_ok.1 h2
    have hd := (reciproc_eq_ok.1 hb).1
    refine ⟨o1, o2, ?_, ?_⟩
    · rintro rfl
      simp only [latticeVectors] at h1
      split_ifs at h1
      · rw [Except.ok.injEq] at h1; subst h1; simp at hd
      · rw [Except.ok.injEq] at h1; subst h1; simp at hd
    · simp only [latticeVectors] at h1
      split_ifs at h1 with a b
      · exact .inl a
      · exact .inr b
  · rintro ⟨o1, o2, hp, hs⟩
    have key : ∀ lat, latticeVectors pitch (.name s) = .ok lat → lat.1.1 * lat.2.2 - lat.1.2 * lat.2.1 ≠ 0 →
        ∃ c, Crystal.create tag pw (.name s) pitch void epsi epse = .ok c := by
      intro lat h1 hd
      exact ⟨_, create_eq_ok.2 ⟨lat, _, h1, make_eq_ok.2 ⟨o1, o2, _, reciproc_eq_ok.2 ⟨hd, rfl⟩, rfl⟩, rfl⟩⟩
    rcases hs with rfl | rfl
    · exact key _ rfl (by simp [hp])
    · refine key _ (by simp only [latticeVectors]; rw [if_neg (by decide), if_pos trivial]) ?_
      have : pitch * (Real.sqrt 3 / 2) * (pitch * (-1 / 2)) - pitch * (1 / 2) * (pitch * (Real.sqrt 3 / 2)) =
          -(pitch ^ 2 * Real.sqrt 3 / 2) := by ring
      rw [this]
      simp [hp]

/-- **C71.** The name given in the documentation of the constructor, "hexa", is refused. -/
theorem C71_counterexample (tag : ℕ) (pw : ℕ × ℕ) (pitch : ℝ) (void : Bool) (epsi epse : ℂ) :
    Crystal.create tag pw (.name "hexa") pitch void epsi epse = .error .notImplemented := rfl

/-- **C71.** The square lattice: its reciprocal lattice is unchanged by a quarter turn, and its cell has area `a²`. -/
theorem C71_square {tag : ℕ} {pw : ℕ × ℕ} {pitch : ℝ} {void : Bool} {epsi epse : ℂ} {c : Crystal (pw.1 * pw.2)}
    (h : Crystal.create tag pw (.name "square") pitch void epsi epse = .ok c) :
    c.expansion.sigma = pitch ^ 2 ∧ ∀ m n : ℤ, rotate2 (Real.pi / 2) (latticeVec c.expansion.reciprocal (m, n)) =
      latticeVec c.expansion.reciprocal (-n, m) := by
  obtain ⟨lat, e, h1, h2, rfl⟩ := create_eq_ok.1 h
  simp only [latticeVectors, if_true, Except.ok.injEq] at h1
  subst h1
  obtain ⟨o1, o2, b, hb, rfl⟩ := make_eq_ok.1 h2
  obtain ⟨hd, rfl⟩ := reciproc_eq_ok.1 hb
  refine ⟨?_, fun m n => ?_⟩
  · simp only [unitCellArea]
    rw [show pitch * 1 * (pitch * 1) - pitch * 0 * (pitch * 0) = pitch ^ 2 by ring, abs_of_nonneg (sq_nonneg _)]
  · simp only [latticeVec, rotate2, Real.cos_pi_div_two, Real.sin_pi_div_two]
    ext <;> push_cast <;> ring

/-- **C71.** The hexagonal lattice: its reciprocal lattice is unchanged by a sixth of a turn, its two lattice vectors have
length `a` and its cell has area `√3/2 a²`. -/
theorem C71_hexagonal {tag : ℕ} {pw : ℕ × ℕ} {pitch : ℝ} {void : Bool} {epsi epse : ℂ} {c : Crystal (pw.1 * pw.2)}
    (h : Crystal.create tag pw (.name "hexagonal") pitch void epsi epse = .ok c) :
    c.expansion.sigma = Real.sqrt 3 / 2 * pitch ^ 2 ∧
    (∃ a1 a2 : R2, Expansion.make tag pw (a1, a2) = .ok c.expansion ∧ dot2 a1 a1 = pitch ^ 2 ∧ dot2 a2 a2 = pitch ^ 2) ∧
    ∀ m n : ℤ, rotate2 (Real.pi / 3) (latticeVec c.expansion.reciprocal (m, n)) =
      latticeVec c.expansion.reciprocal (n, n - m) := by
  have h3 : Real.sqrt 3 ^ 2 = 3 := Real.sq_sqrt (by norm_num)
  obtain ⟨lat, e, h1, h2, rfl⟩ := create_eq_ok.1 h
  simp only [latticeVectors, show ("hexagonal" = "square") = False by simp, if_false, if_true, Except.ok.injEq] at h1
  subst h1
  have h2' := h2
  obtain ⟨o1, o2, b, hb, rfl⟩ := make_eq_ok.1 h2
  obtain ⟨hd, rfl⟩ := reciproc_eq_ok.1 hb
  refine ⟨?_, ⟨_, _, h2', ?_, ?_⟩, fun m n => ?_⟩
  · simp only [unitCellArea]
    rw [show pitch * (Real.sqrt 3 / 2) * (pitch * (-1 / 2)) - pitch * (1 / 2) * (pitch * (Real.sqrt 3 / 2)) =
      -(Real.sqrt 3 / 2 * pitch ^ 2) by ring, abs_neg, abs_of_nonneg (by positivity)]
  · simp only [dot2]; linear_combination (pitch ^ 2 / 4) * h3
  · simp only [dot2]; linear_combination (pitch ^ 2 / 4) * h3
  · simp only [latticeVec, rotate2, Real.cos_pi_div_three, Real.sin_pi_div_three]
    generalize 2 * Real.pi / _ = k
    ext
    · push_cast; linear_combination (k * pitch * m / 4 - k * pitch * n / 4) * h3
    · push_cast; ring

/-- **C71.** After any sequence of `add_*` calls on a crystal, a name stands for what the last call with that name asked
for, unsolved, in the expansion of the crystal; other names and everything else are as before. -/
theorem C71_layers {N : ℕ} {c0 c : Crystal N} {l : List Add} (h : c0.addAll l = .ok c) :
    c = { c0 with layers := c.layers } ∧ ∀ x, (lastAdd l x = none → c.layers x = c0.layers x) ∧
      ∀ a, lastAdd l x = some a → ∃ y : Layer N, c.layers x = some (.plain y) ∧ a.Asks y.form ∧ y.depth = a.depth ∧
        y.expansion = c0.expansion ∧ y.fields = false ∧ y.W = none ∧ y.S = none :=
  addAll_view h

/-- **C71.** Adding layers fails only on a pixmap without pixels given to `add_pixmap_or_uniform`. -/
theorem C71_add_accepts {N : ℕ} (c : Crystal N) (a : Add) :
    (∃ c', c.add a = .ok c') ↔ ∀ n p d, a = .pixmapOrUniform n p d → 0 < p.nx ∧ 0 < p.ny := by
  cases a with
  | pixmapOrUniform n p d =>
    simp only [Crystal.add, bind_eq_ok, pure, Except.pure, Except.ok.injEq, Layer.pixmapOrUniform, Add.pixmapOrUniform.injEq]
    constructor
    · rintro ⟨c', l, h, -⟩ _ _ _ ⟨rfl, rfl, rfl⟩
      by_contra hn
      rw [dif_neg hn] at h
      cases h
    · intro h
      rw [dif_pos (h n p d ⟨rfl, rfl, rfl⟩)]
      split_ifs
      · exact ⟨_, _, rfl, rfl⟩
      · exact ⟨_, _, rfl, rfl⟩
  | uniform n e d => exact ⟨fun _ _ _ _ h => by simp at h, fun _ => ⟨_, rfl⟩⟩
  | pixmap n e d => exact ⟨fun _ _ _ _ h => by simp at h, fun _ => ⟨_, rfl⟩⟩
  | analytical n e ho d => exact ⟨fun _ _ _ _ h => by simp at h, fun _ => ⟨_, rfl⟩⟩

/-- **C71.** A crystal built by calls is a device ready for `set_device`, which accepts every stack of added names with a
mask that fits (this is the starting point of C12, C15, C70, …). -/
theorem C71_device {tag : ℕ} {pw : ℕ × ℕ} {lattice : LatticeArg} {pitch : ℝ} {epsi epse : ℂ}
    {c0 c : Crystal (pw.1 * pw.2)} {l : List Add} {stack : List String} {m : Bool ⊕ List Bool}
    (h0 : Crystal.create tag pw lattice pitch false epsi epse = .ok c0) (h : c0.addAll l = .ok c)
    (hr : ∀ a ∈ l, a.name ≠ "Sref" ∧ a.name ≠ "Strans") (hst : ∀ x ∈ stack, ∃ a ∈ l, a.name = x)
    (hm : ∀ b, m = .inr b → b.length = stack.length) :
    ∃ Ls c1, FreshDevice c stack m Ls epsi epse ∧ Built c.expansion ∧ c.setDevice stack m = .ok c1 ∧
      List.Forall₂ (fun x (y : Layer (pw.1 * pw.2)) => ∃ a, lastAdd l x = some a ∧ a.Asks y.form ∧ y.depth = a.depth)
        stack Ls := by
  obtain ⟨Ls, hf, hb, hL⟩ := build_fresh h0 h hr hst hm
  have hml : (maskList stack m).length = stack.length := by
    rcases m with b | b
    · simp [maskList]
    · simpa [maskList] using hm b rfl
  obtain ⟨c1, h1, -⟩ := setDevice_standard hf.void hf.noRef hf.noTrans hf.layers hml
  exact ⟨Ls, c1, hf, hb, h1, hL⟩

theorem enableFields_key {N : ℕ} {c : Crystal N} {l : List (String × Bool)} {x : String} {b : Bool} (hx : (x, b) ∈ l)
    (hn : c.layers x = none) : c.enableFields l = .error .key := by
  induction l generalizing c with
  | nil => simp at hx
  | cons p t ih =>
    obtain ⟨y, d⟩ := p
    simp only [Crystal.enableFields]
    cases hy : c.layers y with
    | none => simp [Crystal.layer, hy, error_bind]
    | some z =>
      have hne : x ≠ y := by rintro rfl; rw [hn] at hy; cases hy
      simp only [Crystal.layer, hy, ok_bind]
      refine ih ?_ ?_
      · simpa [hne] using hx
      · simpa [Crystal.setLayer, Function.update_of_ne hne] using hn

/-- **C71.** A name never added is reported by `set_device`, as a `KeyError`. -/
theorem C71_unknown {N : ℕ} {c0 c : Crystal N} {l : List Add} (h : c0.addAll l = .ok c) {x : String}
    (h0 : c0.layers x = none) (hx : ∀ a ∈ l, a.name ≠ x) (hr : x ≠ "Sref" ∧ x ≠ "Strans") {stack : List String}
    (hs : x ∈ stack) (b : Bool) : c.setDevice stack (.inl b) = .error .key ∨ c.void = true := by
  cases hv : c.void with
  | true => exact .inr rfl
  | false =>
    left
    have hn : c.layers x = none := by rw [((addAll_view h).2 x).1 (lastAdd_none hx), h0]
    simp only [Crystal.setDevice]
    refine enableFields_key (x := x) (b := b) ?_ ?_
    · simp only [withOuter, hv, Bool.false_eq_true, if_false, List.zip_cons_cons, List.mem_cons]
      right
      rw [List.zip_append (by simp), List.mem_append]
      left
      obtain ⟨i, hi, rfl⟩ := List.mem_iff_getElem.1 hs
      exact List.mem_iff_getElem.2 ⟨i, by simpa using hi, by simp⟩
    · simp only [ensureHalf]
      split_ifs <;> simp [Crystal.setLayer, Function.update_of_ne hr.1, Function.update_of_ne hr.2, hn]

/-- **C71.** From the constructor to the fluxes: `Multilayer(epsi, epse)`, one `add_layer_uniform` per layer under names of
its own, `set_device` with all of them, `set_source`, `solve`, `poynting_flux_end` give the reflectance and transmittance of
the characteristic-matrix formulas. -/
theorem C71_multilayer {lib : NumLib} {tag : ℕ} {er et : ℝ} {c0 c c1 c2 c3 : Crystal (1 * 1)}
    {items : List (String × ℂ × ℝ)} {m : Bool ⊕ List Bool} {order : List String} {wl : ℝ} {te tm : ℂ} {theta phi : ℝ}
    {kpo : Option (ℂ × ℂ)} (he : EigContract (lib.eig (1 * 1)))
    (h0 : Crystal.multilayer tag er et = .ok c0)
    (ha : c0.addAll (items.map fun x => .uniform x.1 x.2.1 x.2.2) = .ok c)
    (hn : (items.map Prod.fst).Nodup) (hr : ∀ x ∈ items, x.1 ≠ "Sref" ∧ x.1 ≠ "Strans")
    (hm : ∀ b, m = .inr b → b.length = items.length)
    (h1 : c.setDevice (items.map Prod.fst) m = .ok c1) (h2 : c1.setSource wl te tm theta phi kpo = .ok c2)
    (ho : SetOrder ("Sref" :: (items.map Prod.fst ++ ["Strans"])) order) (h3 : c2.solve lib order = .ok c3)
    (hwl : 0 < wl) {src : Source} (hs : c2.source = some src) {kp : ℝ × ℝ} (hkp : src.kp = (↑kp.1, ↑kp.2))
    (hcut : (kp.1 = 0 ∧ kp.2 = 0) ∨ (1 / 10 ^ 8) ^ 2 ≤ kp.1 ^ 2 + kp.2 ^ 2)
    {κ2 : ℝ} (hκ : κ2 = (kp.1 / (2 * Real.pi / wl)) ^ 2 + (kp.2 / (2 * Real.pi / wl)) ^ 2)
    (hg : ∀ x ∈ items, x.2.1 ≠ κ2)
    {f : Crystal.Fluxes (1 * 1)} (hf : c3.poyntingFluxEnd = .ok f) :
    f.R = (‖te‖ ^ 2 * ‖reflection .te κ2 (2 * Real.pi / wl) (items.map Prod.snd) er et‖ ^ 2 +
        ‖tm‖ ^ 2 * ‖reflection .tm κ2 (2 * Real.pi / wl) (items.map Prod.snd) er et‖ ^ 2) / (‖te‖ ^ 2 + ‖tm‖ ^ 2) ∧
    f.T = (‖te‖ ^ 2 * ((outerAdmittance .te κ2 et).re / (outerAdmittance .te κ2 er).re *
          ‖transmission .te κ2 (2 * Real.pi / wl) (items.map Prod.snd) er et‖ ^ 2) +
        ‖tm‖ ^ 2 * ((outerAdmittance .tm κ2 et).re / (outerAdmittance .tm κ2 er).re *
          ‖transmission .tm κ2 (2 * Real.pi / wl) (items.map Prod.snd) er et‖ ^ 2)) / (‖te‖ ^ 2 + ‖tm‖ ^ 2) := by
  obtain ⟨Ls, -, hfr, hb, -, hL⟩ := C71_device (m := m) (stack := items.map Prod.fst) h0 ha
    (by
      intro a haa
      obtain ⟨x, hx, rfl⟩ := List.mem_map.1 haa
      exact hr x hx)
    (by
      intro x hx
      obtain ⟨y, hy, rfl⟩ := List.mem_map.1 hx
      exact ⟨_, List.mem_map.2 ⟨y, hy, rfl⟩, rfl⟩)
    (fun b hb => by rw [List.length_map]; exact hm b hb)
  have key : ∀ x ∈ items, ∀ a, lastAdd (items.map fun x => Add.uniform x.1 x.2.1 x.2.2) x.1 = some a →
      a = .uniform x.1 x.2.1 x.2.2 := by
    intro x hx a hla
    obtain ⟨k1, k2⟩ := lastAdd_some hla
    obtain ⟨y, hy, rfl⟩ := List.mem_map.1 k1
    rw [List.inj_on_of_nodup_map hn hy hx k2]
  have hd : List.Forall₂ (fun (y : Layer (1 * 1)) (z : ℂ × ℝ) => y.form = .uniform z.1 ∧ y.depth = z.2) Ls
      (items.map Prod.snd) := by
    rw [List.forall₂_map_left_iff] at hL
    rw [List.forall₂_map_right_iff]
    refine ((List.forall₂_and_left (p := (· ∈ items)) _ _).2 ⟨fun x hx => hx, hL⟩).flip.imp ?_
    rintro y x ⟨hx, a, k1, k2, k3⟩
    obtain rfl := key x hx a k1
    exact ⟨k2, k3⟩
  refine C70_fluxes he hb hfr h1 h2 ho h3 hwl hs hkp hcut hd hκ ?_ hf
  intro z hz
  obtain ⟨x, hx, rfl⟩ := List.mem_map.1 hz
  exact hg x hx

/-- The hypotheses of `C71_multilayer` hold for a half-wave plate on a medium of index 2. -/
example : ∃ c0 c c1 c2 c3 : Crystal (1 * 1), ∃ f, Crystal.multilayer 0 ((1 : ℝ) : ℂ) ((4 : ℝ) : ℂ) = .ok c0 ∧
    c0.addAll ([("a", (4 : ℂ), (1 / 4 : ℝ))].map fun x => .uniform x.1 x.2.1 x.2.2) = .ok c ∧
    c.setDevice ["a"] (.inl true) = .ok c1 ∧ c1.setSource 1 1 0 0 0 none = .ok c2 ∧
    SetOrder ("Sref" :: (["a"] ++ ["Strans"])) ["Sref", "a", "Strans"] ∧
    c2.solve exampleLib ["Sref", "a", "Strans"] = .ok c3 ∧ c3.poyntingFluxEnd = .ok f := by
  obtain ⟨c1, c2, c3, f, h1, h2, hs, ho, h3, hf⟩ := example_run exampleLib two_pos true
  have h0 : Crystal.multilayer 0 ((1 : ℝ) : ℂ) ((4 : ℝ) : ℂ) =
      .ok { expansion := exampleExpansion, epsi := ((1 : ℝ) : ℂ), epse := ((4 : ℝ) : ℂ) } :=
    create_eq_ok.2 ⟨((1, 0), (0, 1)), exampleExpansion, by simp [latticeVectors], exampleExpansion_make, rfl⟩
  refine ⟨_, exampleCrystal 2, c1, c2, c3, f, h0, ?_, h1, h2, ho, h3, hf⟩
  simp only [List.map_cons, List.map_nil, Crystal.addAll, List.foldlM_cons, List.foldlM_nil, Crystal.add, ok_bind, pure,
    Except.pure, Except.ok.injEq, Crystal.addLayer, Crystal.setLayer, exampleCrystal]
  congr 1
  · push_cast; norm_num
  · funext x
    by_cases hx : x = "a" <;> simp [hx]

/-- The calls of C71 on an example: two layers, one of them defined twice. -/
example : ∃ c0 c : Crystal (1 * 1), Crystal.multilayer 0 1 1 = .ok c0 ∧
    c0.addAll [.uniform "a" 4 1, .uniform "b" 2 1, .uniform "a" 3 5] = .ok c ∧
    lastAdd [.uniform "a" 4 1, .uniform "b" 2 1, .uniform "a" 3 5] "a" = some (.uniform "a" 3 5) ∧
    ∃ c1, c.setDevice ["b", "a", "b"] (.inl true) = .ok c1 := by
  obtain ⟨c0, h0⟩ := (C71_accepts_name 0 (1, 1) "square" 1 false 1 1).2 ⟨odd_one, odd_one, one_ne_zero, .inl rfl⟩
  have ha : c0.addAll [.uniform "a" 4 1, .uniform "b" 2 1, .uniform "a" 3 5] = .ok _ := rfl
  obtain ⟨Ls, c1, -, -, h1, -⟩ := C71_device (m := .inl true) (stack := ["b", "a", "b"]) h0 ha
    (by simp [Add.name]) (by simp [Add.name]) (by simp)
  exact ⟨c0, _, h0, ha, by simp [lastAdd, Add.name], c1, h1⟩

/-- `C71_unknown`: a name that was never added. -/
example : ∃ c0 : Crystal (1 * 1), Crystal.multilayer 0 1 1 = .ok c0 ∧ c0.addAll [.uniform "a" 4 1] = .ok (c0.addLayer "a"
    (Layer.uniform c0.expansion 4 1)) ∧ c0.layers "b" = none ∧ c0.void = false := by
  obtain ⟨c0, h0⟩ := (C71_accepts_name 0 (1, 1) "square" 1 false 1 1).2 ⟨odd_one, odd_one, one_ne_zero, .inl rfl⟩
  obtain ⟨lat, e, -, -, h⟩ := create_eq_ok.1 h0
  exact ⟨c0, h0, rfl, by rw [h], by rw [h]⟩

end Khepri
