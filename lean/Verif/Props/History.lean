import Verif.Lemmas.History
import Verif.Lemmas.Positions
import Verif.Lemmas.ExampleStale
import Verif.Lemmas.ExampleVoid

/-!
# Properties C29, C30, C33: histories of calls, thickness
-/

namespace Khepri

open Matrix

variable {N : ℕ}

/-! ### C29 -/

/-- **C29**, iteration order: whatever the order in which the set of required layers is visited, `solve`
leaves exactly the same crystal. -/
theorem C29_order {lib : NumLib} {c r : Crystal N} {names o o' : List String}
    (ho : SetOrder names o) (ho' : SetOrder names o') :
    c.solve lib o = .ok r ↔ c.solve lib o' = .ok r :=
  ⟨Crystal.solve_order ho ho', Crystal.solve_order ho' ho⟩

/-- **C29**, history: take any two sequences of calls on a new crystal, with as many earlier devices,
sources, solves and replaced layers as one likes, that end up describing the same thing (same last
device and source, same last layer under every name of the device).  Then `solve` succeeds after the
one exactly when it succeeds after the other, and leaves the same total, prefix and suffix matrices, the
same positions and the same results in every layer. -/
theorem C29_history {lib : NumLib} {e : Expansion N} {void : Bool} {epsi epse : ℂ} {h h' : List (Call N)}
    {c c' : Crystal N} (hd : SameDescription h h')
    (ho : (newCrystal e void epsi epse).Orders lib h) (ho' : (newCrystal e void epsi epse).Orders lib h')
    (hc : (newCrystal e void epsi epse).run lib h = .ok c)
    (hc' : (newCrystal e void epsi epse).run lib h' = .ok c')
    {names o o' : List String} (hn : c.globalStacking = some names)
    (hs : SetOrder names o) (hs' : SetOrder names o') :
    ((∃ r, c.solve lib o = .ok r) ↔ ∃ r', c'.solve lib o' = .ok r') ∧
    ∀ r r', c.solve lib o = .ok r → c'.solve lib o' = .ok r' →
      r.stacked = r'.stacked ∧ r.stackPositions = r'.stackPositions ∧
      ∀ x ∈ names, ∃ m m', r.layers x = some m ∧ r'.layers x = some m' ∧ SameResults m m' := by
  have hst : c.globalStacking = c'.globalStacking := by
    rw [(Crystal.run_holds ho hc).stacking, (Crystal.run_holds ho' hc').stacking, hd.device]
  have hn' : c'.globalStacking = some names := by rw [← hst, hn]
  have hd' : SameDescription h' h := ⟨hd.device.symm, hd.source.symm,
    fun s m hD x hx => (hd.layers s m (hd.device.trans hD) x hx).symm⟩
  refine ⟨⟨?_, ?_⟩, ?_⟩
  · rintro ⟨r, hr⟩
    obtain ⟨r', hr', -⟩ := Crystal.history_solve hd ho ho' hc hc' hn hs hs' hr
    exact ⟨r', hr'⟩
  · rintro ⟨r, hr⟩
    obtain ⟨r', hr', -⟩ := Crystal.history_solve hd' ho' ho hc' hc hn' hs' hs hr
    exact ⟨r', hr'⟩
  · intro r r' hr hr'
    obtain ⟨r1, hr1, h1⟩ := Crystal.history_solve hd ho ho' hc hc' hn hs hs' hr
    rw [hr'] at hr1
    cases hr1
    exact h1

/-- The history of the running example: register the plate, set the device and the source. -/
noncomputable def exampleHistory : List (Call 1) :=
  [.register "a" (.plain (Layer.uniform exampleExpansion 4 (1 / 4))), .device ["a"] (.inl true),
    .source 1 1 0 0 0 none]

/-- A longer history describing the same thing: another plate, device, source and a solve come first. -/
noncomputable def exampleDetour : List (Call 1) :=
  [.register "a" (.plain (Layer.uniform exampleExpansion 4 (1 / 4))), .device ["a"] (.inl true),
    .source 2 1 0 0 0 none, .solve ["Sref", "a", "Strans"], .source 1 1 0 0 0 none]

theorem example_new (lib : NumLib) : ∃ c1,
    (newCrystal exampleExpansion false 1 1).setLayer "a" (.plain (Layer.uniform exampleExpansion 4 (1 / 4)))
      = exampleCrystal 1 ∧
    (exampleCrystal 1).setDevice ["a"] (.inl true) = .ok c1 ∧ c1.epsi = 1 ∧
    (∃ c3, ({ c1 with source := some exampleSource } : Crystal 1).solve lib ["Sref", "a", "Strans"] = .ok c3) ∧
    c1.globalStacking = some ["Sref", "a", "Strans"] := by
  obtain ⟨c1, c2, c3, st, k1, k2, hs2, ho, k3, -, -, -, -, -, -, -, hgs, -, -, hi, -⟩ :=
    example_solve lib one_pos true
  obtain ⟨-, src⟩ := Crystal.setSource_rest k2
  have hi1 : c1.epsi = 1 := by
    have hf := example_fresh 1 true
    obtain ⟨c1', h1', hd, hexp, -, hi, hie⟩ := Crystal.setDevice_standard (m := .inl true) hf.void hf.noRef
      hf.noTrans hf.layers (by simp [Crystal.maskList])
    rw [k1] at h1'
    cases h1'
    exact hi
  rw [example_setSource hi1] at k2
  cases k2
  refine ⟨c1, ?_, k1, hi1, ⟨c3, k3⟩, ?_⟩
  · simp only [newCrystal, Crystal.setLayer, exampleCrystal, Crystal.mk.injEq]
    refine ⟨trivial, trivial, trivial, by simp, ?_, trivial, trivial, trivial, trivial, trivial, trivial⟩
    funext x
    by_cases hx : x = "a"
    · subst hx; simp
    · simp [hx]
  · obtain ⟨_, names, _, _, _, _, _, h2, _, _, _, _, _, _, h9⟩ := (Crystal.solve_eq_ok ho.1).1 k3
    have : c3.globalStacking = c1.globalStacking := by rw [h9]
    rw [← this, hgs]

/-- Non-vacuity of C29: two different histories, one with an earlier source and solve. -/
example : ∃ (lib : NumLib) (h h' : List (Call 1)) (c c' : Crystal 1), h ≠ h' ∧ SameDescription h h' ∧
    (newCrystal exampleExpansion false 1 1).Orders lib h ∧ (newCrystal exampleExpansion false 1 1).Orders lib h' ∧
    (newCrystal exampleExpansion false 1 1).run lib h = .ok c ∧
    (newCrystal exampleExpansion false 1 1).run lib h' = .ok c' ∧
    c.globalStacking = some ["Sref", "a", "Strans"] ∧
    ∃ r, c.solve lib ["Sref", "a", "Strans"] = .ok r := by
  obtain ⟨c1, e0, h1, hi, ⟨c3, h3⟩, hg⟩ := example_new exampleLib
  obtain ⟨c4, f, h4, -⟩ := example_solve2 exampleLib h1
  have hi4 : c4.epsi = 1 := by
    obtain ⟨_, _, _, _, _, _, _, _, _, _, _, _, _, _, h9⟩ := (Crystal.solve_eq_ok (by decide)).1 h4
    rw [h9]; exact hi
  refine ⟨exampleLib, exampleHistory, exampleDetour, { c1 with source := some exampleSource },
    { c4 with source := some exampleSource }, by simp [exampleHistory, exampleDetour], ?_, ?_, ?_, ?_, ?_, hg, c3, h3⟩
  · refine ⟨rfl, rfl, fun s m hD x hx => rfl⟩
  · simp [Crystal.Orders, exampleHistory]
  · simp [Crystal.Orders, exampleDetour]
  · simp only [exampleHistory, Crystal.run_cons, Crystal.run_nil, Crystal.call, e0]
    exact ⟨_, rfl, c1, h1, _, example_setSource hi, rfl⟩
  · simp only [exampleDetour, Crystal.run_cons, Crystal.run_nil, Crystal.call, e0]
    exact ⟨_, rfl, c1, h1, _, example_setSource2 hi, c4, h4, _, example_setSource hi4, rfl⟩

/-! ### C30 -/

/-- **C30** fails: after a solve at one wavelength, moving the source to another wavelength and asking
for the fluxes does not raise; it answers `R = 0` where the same device solved for that source gives
`R = 9/25`. -/
theorem C30_stale_counterexample (lib : NumLib) : ∃ c1 c2 c3 c4 f c5 c6 g,
    (exampleCrystal 1).setDevice ["a"] (.inl true) = .ok c1 ∧
    -- solved at wavelength 1, source moved to wavelength 2, not solved again
    c1.setSource 1 1 0 0 0 none = .ok c2 ∧ c2.solve lib ["Sref", "a", "Strans"] = .ok c3 ∧
    c3.setSource 2 1 0 0 0 none = .ok c4 ∧ c4.poyntingFluxEnd = .ok f ∧ f.R = 0 ∧
    -- solved at wavelength 2
    c1.setSource 2 1 0 0 0 none = .ok c5 ∧ c5.solve lib ["Sref", "a", "Strans"] = .ok c6 ∧
    c6.poyntingFluxEnd = .ok g ∧ g.R = 9 / 25 := by
  obtain ⟨c1, e0, h1, hi, ⟨c3, h3⟩, hg⟩ := example_new lib
  obtain ⟨hi3, f, hf, hf0⟩ := example_stale lib h1 h3
  obtain ⟨c6, g, h6, hg6, hg0⟩ := example_solve2 lib h1
  exact ⟨c1, _, c3, _, f, _, c6, g, h1, example_setSource hi, h3, example_setSource2 hi3, hf, hf0,
    example_setSource2 hi, h6, hg6, hg0⟩

/-- Calls other than `solve`. -/
def Call.isSolve : Call N → Bool
  | .solve _ => true
  | _ => false

theorem run_unsolved {lib : NumLib} : ∀ {h : List (Call N)} {c r : Crystal N}, (∀ k ∈ h, k.isSolve = false) →
    c.run lib h = .ok r → r.stacked = c.stacked
  | [], c, r, _, hr => by rw [Crystal.run_nil] at hr; rw [hr]
  | k :: h, c, r, hk, hr => by
    obtain ⟨c1, h1, h2⟩ := Crystal.run_cons.1 hr
    rw [run_unsolved (fun k hk' => hk k (List.mem_cons_of_mem _ hk')) h2]
    cases k with
    | register x l =>
      simp only [Crystal.call, Except.ok.injEq] at h1
      rw [← h1]; rfl
    | device s m =>
      simp only [Crystal.call, Crystal.setDevice, Crystal.enableFields_eq_ok] at h1
      obtain ⟨-, rfl⟩ := h1
      simp only
      rw [Crystal.ensureHalf_rest]
      simp only
      rw [Crystal.ensureHalf_rest]
    | source wl te tm th ph kp =>
      obtain ⟨e, -⟩ := Crystal.setSource_rest h1
      rw [e]
    | solve o => exact absurd (hk (.solve o) (List.mem_cons_self ..)) (by simp [Call.isSolve])

/-- **C30**, the part that holds: a crystal that was never solved raises `AssertionError`. -/
theorem C30_unsolved_partial {lib : NumLib} {e : Expansion N} {void : Bool} {epsi epse : ℂ} {h : List (Call N)}
    {c : Crystal N} (hk : ∀ k ∈ h, k.isSolve = false) (hc : (newCrystal e void epsi epse).run lib h = .ok c) :
    c.poyntingFluxEnd = .error .assertion := by
  have := run_unsolved hk hc
  unfold Crystal.poyntingFluxEnd
  rw [this]
  rfl

/-- Non-vacuity: a history without solves that runs. -/
example : ∃ (lib : NumLib) (h : List (Call 1)) (c : Crystal 1), h ≠ [] ∧ (∀ k ∈ h, k.isSolve = false) ∧
    (newCrystal exampleExpansion false 1 1).run lib h = .ok c := by
  obtain ⟨c1, e0, h1, hi, -⟩ := example_new exampleLib
  refine ⟨exampleLib, exampleHistory, { c1 with source := some exampleSource }, by simp [exampleHistory],
    by simp [exampleHistory, Call.isSolve], ?_⟩
  simp only [exampleHistory, Crystal.run_cons, Crystal.run_nil, Crystal.call, e0]
  exact ⟨_, rfl, c1, h1, _, example_setSource hi, rfl⟩

theorem solved_plain {lib : NumLib} {e : Expansion N} {epsi epse : ℂ} {h : List (Call N)}
    {c r : Crystal N} (ho : (newCrystal e false epsi epse).Orders lib h)
    (hc : (newCrystal e false epsi epse).run lib h = .ok c) {o : List String} (hnd : o.Nodup)
    (hr : c.solve lib o = .ok r) {x : String} (hx : x ∈ o) (hreg : registered x h = none) {m : AnyLayer N}
    (hm : r.layers x = some m) {w : Mat2 N} (hw : m.W = some w) : m.fields = true := by
  have H := Crystal.run_holds ho hc
  obtain ⟨_, _, _, _, _, _, _, _, h3, _⟩ := (Crystal.solve_eq_ok hnd).1 hr
  obtain ⟨l, l', k1, k2, k3⟩ := h3 x hx
  rw [hm] at k3; cases k3
  cases l with
  | plain l =>
    obtain ⟨s, _, rfl⟩ := AnyLayer.solve_plain.1 k2
    simp only [AnyLayer.W, Layer.store] at hw
    split_ifs at hw with hf
    exact hf
  | ext l =>
    exfalso
    rcases H.layers x with a | ⟨-, a⟩
    · rw [hreg, k1] at a; simp at a
    · rw [k1] at a
      simp only [Option.map_some, AnyLayer.described, Crystal.defaultHalf] at a
      split_ifs at a <;> simp at a

/-- **C30**, the part that holds: when the last call is the `solve`, the fluxes are those of the
device and source described last, whatever was set or solved before (any two histories describing the
same thing give the same fluxes). -/
theorem C30_fresh_partial {lib : NumLib} {e : Expansion N} {epsi epse : ℂ} {h h' : List (Call N)}
    {c c' r r' : Crystal N} (hd : SameDescription h h')
    (ho : (newCrystal e false epsi epse).Orders lib h) (ho' : (newCrystal e false epsi epse).Orders lib h')
    (hc : (newCrystal e false epsi epse).run lib h = .ok c)
    (hc' : (newCrystal e false epsi epse).run lib h' = .ok c')
    (hr0 : registered "Sref" h = none) (ht0 : registered "Strans" h = none)
    {names o o' : List String} (hn : c.globalStacking = some names)
    (hs : SetOrder names o) (hs' : SetOrder names o')
    (hr : c.solve lib o = .ok r) (hr' : c'.solve lib o' = .ok r')
    {f f' : Crystal.Fluxes N} (hf : r.poyntingFluxEnd = .ok f) (hf' : r'.poyntingFluxEnd = .ok f') : f = f' := by
  obtain ⟨e1, -, e3⟩ := (C29_history hd ho ho' hc hc' hn hs hs').2 r r' hr hr'
  have H := Crystal.run_holds ho hc
  have H' := Crystal.run_holds ho' hc'
  obtain ⟨⟨s, m⟩, hD, hnm⟩ : ∃ d, lastDevice h = some d ∧ Crystal.withOuter false d.1 = names := by
    have := H.stacking
    rw [hn] at this
    obtain ⟨d, h1, h2⟩ := Option.map_eq_some_iff.1 this.symm
    exact ⟨d, h1, h2⟩
  have i1 : "Sref" ∈ names := by rw [← hnm]; simp [Crystal.withOuter]
  have i2 : "Strans" ∈ names := by rw [← hnm]; simp [Crystal.withOuter]
  have hr0' : registered "Sref" h' = none := by
    have := hd.layers s m hD "Sref" (by simp)
    rw [hr0] at this
    simpa using this.symm
  have ht0' : registered "Strans" h' = none := by
    have := hd.layers s m hD "Strans" (by simp)
    rw [ht0] at this
    simpa using this.symm
  have hsrc : c.source = c'.source := by
    cases hA : lastSource h with
    | none => rw [H.noSource hA, H'.noSource (hd.source ▸ hA)]
    | some a =>
      obtain ⟨c2, k1, k2⟩ := H.source a hA
      obtain ⟨c3, k3, k4⟩ := H'.source a (hd.source ▸ hA)
      rw [k1] at k3
      cases k3
      rw [k2, k4]
  have hh := Crystal.solve_holds H hs.1 hr
  have hh' := Crystal.solve_holds H' hs'.1 hr'
  have hsr : r.source = r'.source := by
    rw [Crystal.solve_keeps_source hr, Crystal.solve_keeps_source hr', hsrc]
  obtain ⟨st, src, inc, ref, tr, Wref, Wtrans, T, R, a1, a2, a3, a4, a5, a6, a7, a8, a9, a10, rfl⟩ :=
    Crystal.poyntingFluxEnd_eq_ok.1 hf
  obtain ⟨st', src', inc', ref', tr', Wref', Wtrans', T', R', b1, b2, b3, b4, b5, b6, b7, b8, b9, b10, rfl⟩ :=
    Crystal.poyntingFluxEnd_eq_ok.1 hf'
  rw [e1, b1] at a1; cases a1
  rw [hsr, b2] at a2; cases a2
  rw [b3] at a3; cases a3
  obtain ⟨q, q', q1, q2, q3⟩ := e3 "Sref" i1
  rw [q1] at a4; cases a4
  rw [q2] at b4; cases b4
  obtain ⟨p, p', p1, p2, p3⟩ := e3 "Strans" i2
  rw [p1] at a7; cases a7
  rw [p2] at b7; cases b7
  have w1 := q3.W (solved_plain ho hc hs.1 hr ((hs.2 _).2 i1) hr0 q1 a5)
    (solved_plain ho' hc' hs'.1 hr' ((hs'.2 _).2 i1) hr0' q2 b5)
  have w2 := p3.W (solved_plain ho hc hs.1 hr ((hs.2 _).2 i2) ht0 p1 a8)
    (solved_plain ho' hc' hs'.1 hr' ((hs'.2 _).2 i2) ht0' p2 b8)
  rw [a5, b5] at w1; cases w1
  rw [a8, b8] at w2; cases w2
  rw [hh.expansion, hh.epsi, hh.epse] at a9
  rw [hh.expansion, hh.epsi] at a10
  rw [hh'.expansion, hh'.epsi, hh'.epse] at b9
  rw [hh'.expansion, hh'.epsi] at b10
  rw [a9] at b9; cases b9
  rw [a10] at b10; cases b10
  rfl

/-- Non-vacuity: two histories (the second first sets another source) and fluxes after each. -/
example : ∃ (lib : NumLib) (h h' : List (Call 1)) (c c' r r' : Crystal 1) (f f' : Crystal.Fluxes 1), h ≠ h' ∧
    SameDescription h h' ∧
    (newCrystal exampleExpansion false 1 1).Orders lib h ∧ (newCrystal exampleExpansion false 1 1).Orders lib h' ∧
    (newCrystal exampleExpansion false 1 1).run lib h = .ok c ∧
    (newCrystal exampleExpansion false 1 1).run lib h' = .ok c' ∧
    registered "Sref" h = none ∧ registered "Strans" h = none ∧
    c.globalStacking = some ["Sref", "a", "Strans"] ∧ SetOrder ["Sref", "a", "Strans"] ["Sref", "a", "Strans"] ∧
    c.solve lib ["Sref", "a", "Strans"] = .ok r ∧ c'.solve lib ["Sref", "a", "Strans"] = .ok r' ∧
    r.poyntingFluxEnd = .ok f ∧ r'.poyntingFluxEnd = .ok f' := by
  obtain ⟨c1, e0, h1, hi, -, hg⟩ := example_new exampleLib
  obtain ⟨c6, g, h6, hg6, -⟩ := example_solve2 exampleLib h1
  refine ⟨exampleLib,
    [.register "a" (.plain (Layer.uniform exampleExpansion 4 (1 / 4))), .device ["a"] (.inl true),
      .source 2 1 0 0 0 none],
    [.register "a" (.plain (Layer.uniform exampleExpansion 4 (1 / 4))), .device ["a"] (.inl true),
      .source 1 1 0 0 0 none, .source 2 1 0 0 0 none],
    _, _, c6, c6, g, g, by simp, ⟨rfl, rfl, fun s m hD x hx => rfl⟩, by simp [Crystal.Orders],
    by simp [Crystal.Orders], ?_, ?_, by simp [registered], by simp [registered], ?_,
    ⟨by decide, fun x => Iff.rfl⟩, h6, h6, hg6, hg6⟩
  · simp only [Crystal.run_cons, Crystal.run_nil, Crystal.call, e0]
    exact ⟨_, rfl, c1, h1, _, example_setSource2 hi, rfl⟩
  · simp only [Crystal.run_cons, Crystal.run_nil, Crystal.call, e0]
    exact ⟨_, rfl, c1, h1, _, example_setSource hi, _, example_setSource2 (by exact hi), rfl⟩
  · exact hg

/-! ### C33 -/

/-- **C33**, for crystals with outer media (the default ones, or registered ones of depth 0): after
`solve`, `zmax` and `depth` both are the sum of the depths of the layers last registered under the names
of the device (with repetition). -/
theorem C33_thickness_partial {lib : NumLib} {e : Expansion N} {epsi epse : ℂ} {h : List (Call N)}
    {c r : Crystal N} (ho : (newCrystal e false epsi epse).Orders lib h)
    (hc : (newCrystal e false epsi epse).run lib h = .ok c)
    (hout : ∀ x l, x = "Sref" ∨ x = "Strans" → registered x h = some l → l.depth = 0)
    {s : List String} {m : Bool ⊕ List Bool} (hD : lastDevice h = some (s, m))
    {o : List String} (hs : SetOrder ("Sref" :: (s ++ ["Strans"])) o) (hr : c.solve lib o = .ok r) :
    ∃ Ds : List ℝ, List.Forall₂ (fun x d => ∃ l, r.layers x = some l ∧ l.depth = d ∧
        ∀ l0, registered x h = some l0 → d = l0.depth) s Ds ∧
      r.depth = .ok Ds.sum ∧ r.zmax = .ok (Ds.sum : EReal) := by
  obtain ⟨lr, ls, lt, h1, h2, -, h3, h4, h5, h6, h7⟩ := solved_view ho hc hout hD hs hr
  refine ⟨ls.map AnyLayer.depth, ?_, ?_, ?_⟩
  · rw [List.forall₂_map_right_iff]
    exact h2.imp fun x l hl => ⟨l, hl.1, rfl, hl.2⟩
  · simp only [Crystal.depth, bind_eq_ok, Crystal.attr_eq_ok, mapM_eq_ok, Crystal.layer_eq_ok]
    refine ⟨s, h5, ls, h2.imp fun _ _ h => h.1, ?_⟩
    simp only [pure, Except.pure, Except.ok.injEq]
    exact (List.sum_eq_foldl ..).symm
  · unfold Crystal.zmax
    rw [h4]
    have hlen := Crystal.devicePositions_length (ls.map AnyLayer.depth)
    have hidx := Crystal.devicePositions_mid (ds := ls.map AnyLayer.depth) le_rfl
    rw [startOf_length] at hidx
    exact pyGetZ_neg hidx (by rw [hlen]; push_cast; ring) (by norm_num)

/-- Non-vacuity: the hypotheses hold for the example device (one plate of thickness 1/4). -/
example : ∃ (lib : NumLib) (h : List (Call 1)) (c r : Crystal 1) (o : List String),
    (newCrystal exampleExpansion false 1 1).Orders lib h ∧
    (newCrystal exampleExpansion false 1 1).run lib h = .ok c ∧
    (∀ x l, x = "Sref" ∨ x = "Strans" → registered x h = some l → l.depth = 0) ∧
    (∃ m, lastDevice h = some (["a"], m)) ∧
    SetOrder ("Sref" :: (["a"] ++ ["Strans"])) o ∧ c.solve lib o = .ok r := by
  obtain ⟨c1, e0, h1, hi, ⟨c3, h3⟩, hg⟩ := example_new exampleLib
  refine ⟨exampleLib, exampleHistory, { c1 with source := some exampleSource }, c3, ["Sref", "a", "Strans"],
    ?_, ?_, ?_, ⟨_, rfl⟩, ⟨by decide, fun x => Iff.rfl⟩, h3⟩
  · simp [Crystal.Orders, exampleHistory]
  · simp only [exampleHistory, Crystal.run_cons, Crystal.run_nil, Crystal.call, e0]
    exact ⟨_, rfl, c1, h1, _, example_setSource hi, rfl⟩
  · rintro x l (rfl | rfl) <;> simp [exampleHistory, registered]

/-- **C33** fails for crystals without outer media: two plates of thickness 1/4 have `depth` 1/2, but
`zmax` is 1/4. -/
theorem C33_void_counterexample (lib : NumLib) : ∃ c1 c2 c3,
    voidCrystal.setDevice ["a", "b"] (.inr [false, true]) = .ok c1 ∧
    c1.setSource 1 1 0 0 0 none = .ok c2 ∧ c2.solve lib ["a", "b"] = .ok c3 ∧
    c3.depth = .ok (1 / 2) ∧ c3.zmax = .ok ((1 / 4 : ℝ) : EReal) := by
  obtain ⟨c3, st, h1, h2, h3, h4, h5, h6, h7, h8, h9⟩ := void_solve lib
  refine ⟨_, _, c3, void_setDevice, h1, h3, ?_, ?_⟩
  · simp only [Crystal.depth, h8, bind_eq_ok, Crystal.attr_eq_ok, mapM_eq_ok, Crystal.layer_eq_ok]
    refine ⟨_, rfl, _, .cons h4 (.cons h5 .nil), ?_⟩
    simp [pure, Except.pure, AnyLayer.depth, Layer.store, voidPlate, Layer.uniform]
    norm_num
  · unfold Crystal.zmax
    rw [h6]
    exact pyGetZ_neg (k := 0) rfl (by simp) (by norm_num)

end Khepri
