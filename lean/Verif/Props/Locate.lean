import Verif.Props.History
import Verif.Lemmas.Requested
import Verif.Lemmas.FieldsDevice

/-!
# Properties C31, C32: which fields are kept, and which layer a depth belongs to
-/

namespace Khepri

variable {N : ℕ}

/-! ### C32 -/

/-- **C32.** After any history of calls on a crystal with outer media (the default ones or ones of depth
0), describing a device whose layers have non-negative depths, and `solve`: for every real `z`,
`locate_layer(z)` returns the incidence medium for `z ≤ 0`, the layer `i` for `z` in its interval
`(lower, upper]` with the local coordinate measured from its left face, and the emergence medium for `z`
beyond the device; every `z` inside the device is in exactly one interval. -/
theorem C32_locate {lib : NumLib} {e : Expansion N} {epsi epse : ℂ} {h : List (Call N)}
    {c r : Crystal N} (ho : (newCrystal e false epsi epse).Orders lib h)
    (hc : (newCrystal e false epsi epse).run lib h = .ok c)
    (hout : ∀ x l, x = "Sref" ∨ x = "Strans" → registered x h = some l → l.depth = 0)
    {s : List String} {m : Bool ⊕ List Bool} (hD : lastDevice h = some (s, m))
    (hpos : ∀ x ∈ s, ∀ l, registered x h = some l → 0 ≤ l.depth)
    {o : List String} (hs : SetOrder ("Sref" :: (s ++ ["Strans"])) o) (hr : c.solve lib o = .ok r) :
    ∃ (lr lt : AnyLayer N) (ls : List (AnyLayer N)), r.layers "Sref" = some lr ∧ r.layers "Strans" = some lt ∧
      List.Forall₂ (fun x l => r.layers x = some l) s ls ∧
      ∀ z : ℝ,
        (z ≤ 0 → r.locateLayer z = .ok (lr, 0, (z : EReal))) ∧
        (∀ i (hi : i < ls.length), ((ls.take i).map AnyLayer.depth).sum < z →
          z ≤ ((ls.take (i + 1)).map AnyLayer.depth).sum →
          r.locateLayer z = .ok (ls[i], ((i + 1 : ℕ) : ℤ),
            ((z - ((ls.take i).map AnyLayer.depth).sum : ℝ) : EReal))) ∧
        ((ls.map AnyLayer.depth).sum < z → r.locateLayer z = .ok (lt, ((ls.length + 1 : ℕ) : ℤ),
          ((z - (ls.map AnyLayer.depth).sum : ℝ) : EReal))) ∧
        (0 < z → z ≤ (ls.map AnyLayer.depth).sum → ∃! i, i < ls.length ∧
          ((ls.take i).map AnyLayer.depth).sum < z ∧ z ≤ ((ls.take (i + 1)).map AnyLayer.depth).sum) := by
  obtain ⟨lr, ls, lt, h1, h2, h2', h3, h4, h5, h6, h7⟩ := solved_view ho hc hout hD hs hr
  have hd : ∀ d ∈ ls.map AnyLayer.depth, 0 ≤ d := by
    intro d hd
    obtain ⟨l, hl, rfl⟩ := List.mem_map.1 hd
    obtain ⟨i, hi, rfl⟩ := List.getElem_of_mem hl
    have hi' : i < s.length := h2.length_eq ▸ hi
    have k1 := (List.forall₂_iff_get.1 h2).2 i hi' hi
    have k2 := (List.forall₂_iff_get.1 h2').2 i hi' hi
    simp only [List.get_eq_getElem] at k1 k2
    cases hreg : registered s[i] h with
    | none => rw [k2 hreg]
    | some l0 => rw [k1.2 l0 hreg]; exact hpos _ (List.getElem_mem hi') _ hreg
  have hlen := h2.length_eq
  have hst : ∀ i, ((ls.take i).map AnyLayer.depth).sum = startOf (ls.map AnyLayer.depth) i := by
    intro i; rw [startOf, List.map_take]
  have hmono := startOf_mono hd
  refine ⟨lr, lt, ls, h1, h3, h2.imp fun _ _ h => h.1, fun z => ⟨fun hz => ?_, fun i hi hlo hhi => ?_, fun hz => ?_,
    fun h0 hz => ?_⟩⟩
  · have := Crystal.locateLayer_device (j := 0) (z := z) h4 h6 hd (by omega) (by omega)
      (fun _ => by rwa [startOf_zero]) rfl h1
    simpa using this
  · rw [hst] at hlo hhi
    have hx : s[i]? = some s[i] := List.getElem?_eq_getElem (by omega)
    have hl := (List.forall₂_iff_get.1 h2).2 i (by omega) hi
    have := Crystal.locateLayer_device (j := i + 1) (x := s[i]) (l := ls[i]) h4 h6 hd (by simp; omega)
      (fun k hk => (hmono (by omega)).trans_lt hlo) (fun _ => hhi)
      (by rw [List.getElem?_cons_succ, List.getElem?_append_left (by omega), hx]) hl.1
    rw [hst]
    simpa using this
  · rw [← startOf_length] at hz ⊢
    have := Crystal.locateLayer_device (j := ls.length + 1) (x := "Strans") (l := lt) (z := z) h4 h6 hd (by simp)
      (fun k hk => (hmono (by simp; omega)).trans_lt hz) (fun hh => by simp at hh)
      (by rw [List.getElem?_cons_succ, List.getElem?_append_right (by omega)]; simp [hlen]) h3
    simpa using this
  · simp only [hst]
    have := Crystal.exists_interval hd h0 hz
    simpa using this

/-- Non-vacuity: the history of C33's example, whose plate has depth 1/4. -/
example : ∃ (lib : NumLib) (h : List (Call 1)) (c r : Crystal 1) (o : List String),
    (newCrystal exampleExpansion false 1 1).Orders lib h ∧
    (newCrystal exampleExpansion false 1 1).run lib h = .ok c ∧
    (∀ x l, x = "Sref" ∨ x = "Strans" → registered x h = some l → l.depth = 0) ∧
    (∃ m, lastDevice h = some (["a"], m)) ∧
    (∀ x ∈ ["a"], ∀ l, registered x h = some l → 0 ≤ l.depth) ∧
    SetOrder ("Sref" :: (["a"] ++ ["Strans"])) o ∧ c.solve lib o = .ok r := by
  obtain ⟨c1, e0, h1, hi, ⟨c3, h3⟩, hg⟩ := example_new exampleLib
  refine ⟨exampleLib, exampleHistory, { c1 with source := some exampleSource }, c3, ["Sref", "a", "Strans"],
    ?_, ?_, ?_, ⟨_, rfl⟩, ?_, ⟨by decide, fun x => Iff.rfl⟩, h3⟩
  · simp [Crystal.Orders, exampleHistory]
  · simp only [exampleHistory, Crystal.run_cons, Crystal.run_nil, Crystal.call, e0]
    exact ⟨_, rfl, c1, h1, _, example_setSource hi, rfl⟩
  · rintro x l (rfl | rfl) <;> simp [exampleHistory, registered]
  · intro x hx l hl
    simp only [List.mem_singleton] at hx
    subst hx
    simp only [exampleHistory, registered, List.foldl_cons, List.foldl_nil, if_true, Option.some.injEq] at hl
    subst hl
    simp [AnyLayer.depth, Layer.uniform]

/-! ### C31 -/

/-- **C31 (partial).** A crystal with outer media, any history of calls whose masks fit their stacks (layers
registered or replaced, repeated `set_device`, repeated `solve`), then `solve`: every layer of the solved
device that was asked for since it was registered, and both outer media, hold their modes and inverse
permittivity; every layer never asked for holds no modes.  Missing: crystals without outer media, for which
this is false (`C31_void_counterexample`). -/
theorem C31_kept_partial {lib : NumLib} {e : Expansion N} {epsi epse : ℂ} {h : List (Call N)}
    {c r : Crystal N} (hm : MasksFit h) (hn : NewLayers h) (ho : (newCrystal e false epsi epse).Orders lib h)
    (hc : (newCrystal e false epsi epse).run lib h = .ok c) {o : List String} (hs : o.Nodup)
    (hr : c.solve lib o = .ok r) {x : String} (hx : x ∈ o) {l : AnyLayer N} (hl : r.layers x = some l) :
    (Asked x h → l.W.isSome ∧ l.V.isSome ∧ l.L.isSome ∧ l.IC.isSome) ∧
    (¬ Asked x h → l.W = none ∧ l.V = none ∧ l.L = none) := by
  have hf := Crystal.run_flags hm hn ho hc
  obtain ⟨src, nm, ls, pos, Ss, st, h1, h2, h3, h4, -⟩ := (Crystal.solve_eq_ok hs).1 hr
  obtain ⟨a, b, k1, k2, k3⟩ := h3 x hx
  rw [hl] at k3; cases k3
  obtain ⟨q1, q2, q3⟩ := Crystal.solve_flags k2
  obtain ⟨p1, p2⟩ := hf x a k1
  refine ⟨fun ha => q2 (p1.2 ha), fun ha => q3 p2 ?_⟩
  rw [q1]
  exact Bool.eq_false_iff.2 fun hh => ha (p1.1 hh)

/-- **C31 (partial).** A query at a depth inside a layer that was never asked for is refused with an
assertion error, whatever the incident field. -/
theorem C31_refused_partial {lib : NumLib} {e : Expansion N} {epsi epse : ℂ} {h : List (Call N)}
    {c r : Crystal N} (hm : MasksFit h) (hn : NewLayers h) (ho : (newCrystal e false epsi epse).Orders lib h)
    (hc : (newCrystal e false epsi epse).run lib h = .ok c)
    (hout : ∀ x l, x = "Sref" ∨ x = "Strans" → registered x h = some l → l.depth = 0)
    {s : List String} {m : Bool ⊕ List Bool} (hD : lastDevice h = some (s, m))
    (hpos : ∀ x ∈ s, ∀ l, registered x h = some l → 0 ≤ l.depth)
    {o : List String} (hs : SetOrder ("Sref" :: (s ++ ["Strans"])) o) (hr : c.solve lib o = .ok r)
    {i : ℕ} {x : String} (hx : s[i]? = some x) (hA : ¬ Asked x h) {ls : List (AnyLayer N)}
    (hls : List.Forall₂ (fun x l => r.layers x = some l) s ls) {z : ℝ}
    (hz : ((ls.take i).map AnyLayer.depth).sum < z) (hz' : z ≤ ((ls.take (i + 1)).map AnyLayer.depth).sum)
    (E H : Vec2 N) : r.fourierFields z E H = .error .assertion := by
  obtain ⟨lr, lt, ls', -, -, h1, h2⟩ := C32_locate ho hc hout hD hpos hs hr
  have : ls' = ls := forall₂_functional (fun a b b' hb hb' => by rw [hb] at hb'; exact Option.some.inj hb') h1 hls
  subst this
  have hi := (List.getElem?_eq_some_iff.1 hx).1
  have hi' : i < ls'.length := h1.length_eq ▸ hi
  have hloc := (h2 z).2.1 i hi' hz hz'
  have hl := (List.forall₂_iff_get.1 h1).2 i hi hi'
  simp only [List.get_eq_getElem] at hl
  rw [(List.getElem?_eq_some_iff.1 hx).2] at hl
  obtain ⟨p1, -⟩ := Crystal.solve_flags' hs.1 (Crystal.run_flags hm hn ho hc) hr x _ hl
  have hf : ¬ ls'[i].fields = true := fun hh => hA (p1.1 hh)
  unfold Crystal.fourierFields
  rw [hloc]
  simp only [ok_bind, pyCheck_err hf, error_bind]

/-- **C31 (partial).** With a mask that fits the stack, the prefix and suffix matrices are kept exactly for
the layers asked for and the two outer media; the suffix matrices of the outer media and the prefix matrix
of the whole device included. -/
theorem C31_matrices_partial {lib : NumLib} {order : List String} {c c1 c2 c3 : Crystal N} {stack : List String}
    {m : Bool ⊕ List Bool} {Ls : List (Layer N)} {er et : ℂ} {wl : ℝ} {te tm : ℂ} {theta phi : ℝ}
    {kpo : Option (ℂ × ℂ)} (hc : FreshDevice c stack m Ls er et)
    (h1 : c.setDevice stack m = .ok c1) (h2 : c1.setSource wl te tm theta phi kpo = .ok c2)
    (ho : SetOrder ("Sref" :: (stack ++ ["Strans"])) order) (h3 : c2.solve lib order = .ok c3) :
    ∃ st, c3.stacked = some st ∧ st.Sls.length = stack.length + 2 ∧ st.Srs.length = stack.length + 2 ∧
      (∃ A B A' B', st.Sls[0]? = some (some A) ∧ st.Srs[0]? = some (some B) ∧
        st.Sls[stack.length + 1]? = some (some A') ∧ st.Srs[stack.length + 1]? = some (some B')) ∧
      ∀ i : ℕ, i < stack.length →
        (MaskAt m i → ∃ A B, st.Sls[i + 1]? = some (some A) ∧ st.Srs[i + 1]? = some (some B)) ∧
        (¬ MaskAt m i → st.Sls[i + 1]? = some none ∧ st.Srs[i + 1]? = some none) := by
  obtain ⟨lr, lt, Ls', k, hd, -⟩ := fresh_standard hc h1 h2
  obtain ⟨src, kx, ky, W0, V0, rr, rs, rt, st, h⟩ := solvedDevice hd ho h3
  have hlen : Ls'.length = rs.length := h.lay.length_eq
  have hlen' : stack.length = Ls'.length := by
    have := h.lay'.length_eq
    rw [List.length_zip, ← hlen, min_self] at this
    exact this
  have hml := hd.mask_len
  obtain ⟨-, e1, e2, e3⟩ := C05_stack_layers (by simp [hml, hlen', hlen]) (by simp) h.stack_ok
  have hN : (rr.S :: (rs.map Solved.S ++ [rt.S])).length = stack.length + 2 := by simp; omega
  refine ⟨st, by rw [h.rest'], by rw [e1, hN], by rw [e2, hN], ?_, fun i hi => ?_⟩
  · have a0 := e3 0 (by omega)
    have a1 := e3 (stack.length + 1) (by omega)
    have hlast : (true :: (Crystal.maskList stack m ++ [true]))[stack.length + 1]'(by simp; omega) = true := by
      rw [List.getElem_cons_succ, List.getElem_append_right (by omega)]; simp
    obtain ⟨A, hA, -⟩ := a0.1 rfl
    obtain ⟨B, hB, -⟩ := a0.2.2.1 (.inl rfl)
    obtain ⟨A', hA', -⟩ := a1.1 hlast
    obtain ⟨B', hB', -⟩ := a1.2.2.1 (.inl hlast)
    exact ⟨A, B, A', B', hA, hB, hA', hB'⟩
  · have a := e3 (i + 1) (by omega)
    have hg : (true :: (Crystal.maskList stack m ++ [true]))[i + 1]'(by simp; omega) =
        (Crystal.maskList stack m)[i]'(by omega) := by
      rw [List.getElem_cons_succ, List.getElem_append_left (by omega)]
    have hb := Crystal.maskList_get (m := m) (List.getElem?_eq_getElem hi)
    rw [List.getElem?_eq_getElem (by omega), Option.some.injEq] at hb
    rw [hg] at a
    constructor
    · intro hM
      obtain ⟨A, hA, -⟩ := a.1 (hb.2 hM)
      obtain ⟨B, hB, -⟩ := a.2.2.1 (.inl (hb.2 hM))
      exact ⟨A, B, hA, hB⟩
    · intro hM
      have hF := Bool.eq_false_iff.2 fun hh => hM (hb.1 hh)
      exact ⟨a.2.1 hF, a.2.2.2.1 (by simp [hF])⟩

/-- **C31 (partial).** After `set_device` with a mask that fits, `set_source` and `solve`, every query at a
depth of an outer medium or of a layer whose mask entry is true is answered: in Fourier space and in real
space, for every incident field and in-plane wave vector.  Missing: devices with extended layers. -/
theorem C31_query_partial {lib : NumLib} {order : List String} {c c1 c2 c3 : Crystal N} {stack : List String}
    {m : Bool ⊕ List Bool} {Ls : List (Layer N)} {er et : ℂ} {wl : ℝ} {te tm : ℂ} {theta phi : ℝ}
    {kpo : Option (ℂ × ℂ)} (hc : FreshDevice c stack m Ls er et)
    (h1 : c.setDevice stack m = .ok c1) (h2 : c1.setSource wl te tm theta phi kpo = .ok c2)
    (ho : SetOrder ("Sref" :: (stack ++ ["Strans"])) order) (h3 : c2.solve lib order = .ok c3)
    (hpos : ∀ l ∈ Ls, 0 ≤ l.depth) {z : ℝ}
    (hz : z ≤ 0 ∨ (Ls.map Layer.depth).sum < z ∨ ∃ i, i < stack.length ∧ MaskAt m i ∧
      ((Ls.take i).map Layer.depth).sum < z ∧ z ≤ ((Ls.take (i + 1)).map Layer.depth).sum) (E H : Vec2 N) :
    (∃ f, c3.fourierFields z E H = .ok f) ∧
    ∀ (x y : ℝ) (kp : Option (ℂ × ℂ)), ∃ f, c3.fieldsAt x y z (some (E, H)) kp = .ok f := by
  obtain ⟨lr, lt, Ls', k, hd, hL, hexp, -, -, hwl, -, hsrc, hL'⟩ := fresh_standard hc h1 h2
  obtain ⟨src, kx, ky, W0, V0, rr, rs, rt, st, h⟩ := solvedDevice hd ho h3
  have hlen : Ls'.length = rs.length := h.lay.length_eq
  have hlen' : stack.length = Ls'.length := by
    have := h.lay'.length_eq
    rw [List.length_zip, ← hlen, min_self] at this
    exact this
  have hml := hd.mask_len
  have hdep : Ls'.map Layer.depth = Ls.map Layer.depth := depths_congr hL
  have hpos' : ∀ l ∈ Ls', 0 ≤ l.depth := by
    intro l hl
    have := List.mem_map_of_mem (f := Layer.depth) hl
    rw [hdep] at this
    obtain ⟨l0, h0, h0'⟩ := List.mem_map.1 this
    rw [← h0']; exact hpos l0 h0
  have hz' : RequestedAt (Ls'.map Layer.depth) (Crystal.maskList stack m) z := by
    rw [hdep]
    refine hz.imp id (Or.imp id ?_)
    rintro ⟨i, hi, hM, k1, k2⟩
    refine ⟨i, (Crystal.maskList_get (List.getElem?_eq_getElem hi)).2 hM, ?_, ?_⟩
    · rwa [startOf, ← List.map_take]
    · rwa [startOf, ← List.map_take]
  obtain ⟨j, hj, hjm⟩ := fallsIn_requested (by simpa using hpos') (by simp; omega) hz'
  have hjl : j ≤ Ls'.length + 1 := by simpa using hj.1
  obtain ⟨l, hl⟩ : ∃ l, (lr :: (Ls' ++ [lt]))[j]? = some l :=
    ⟨_, List.getElem?_eq_getElem (by simp; omega)⟩
  obtain ⟨r, hr⟩ : ∃ r, (rr :: (rs ++ [rt]))[j]? = some r :=
    ⟨_, List.getElem?_eq_getElem (by simp; omega)⟩
  have hf : l.fields = true := by
    cases j with
    | zero => simp only [List.getElem?_cons_zero, Option.some.injEq] at hl; rw [← hl]; exact hd.ref_fields
    | succ j =>
      rw [List.getElem?_cons_succ] at hl hjm
      rcases lt_or_ge j Ls'.length with hj' | hj'
      · rw [List.getElem?_append_left (by omega)] at hl hjm
        exact zipWith_fields hL' hl hjm
      · have e : j - Ls'.length = 0 := by omega
        rw [List.getElem?_append_right hj', e] at hl
        simp only [List.getElem?_cons_zero, Option.some.injEq] at hl
        rw [← hl]; exact hd.trans_fields
  obtain ⟨hWr, hVr⟩ := halfSpaceModes_det h.er_ne h.ref_modes
  obtain ⟨p, hp⟩ := fieldOf_surjective hWr hVr ⟨E, H⟩
  obtain ⟨f, -, -, hf', -⟩ := h.fields hd hpos' hj hl hr hf hjm (a := p.fwd) (b := p.bwd) hp.symm
  refine ⟨⟨f, hf'⟩, fun x y kp => ?_⟩
  have hs3 : c3.source = some src := by rw [h.rest']; exact h.source
  have hst3 : c3.stacked = some st := by rw [h.rest']
  obtain ⟨kz, hk⟩ := h.kv
  have hk' : ∃ v, c3.expansion.kVectors (kp.getD src.kp) src.wavelength 1 = .ok v := by
    exact ⟨(_, _, _), kVectors_eq_ok.2 ⟨h.wl, rfl, rfl, rfl⟩⟩
  obtain ⟨⟨kx', ky', kz'⟩, hk'⟩ := hk'
  simp only [Crystal.fieldsAt, hst3, hs3, Crystal.attr, Crystal.orDefault, Option.isSome_some, pyCheck_ok, ok_bind, hk',
    hf']
  exact ⟨_, rfl⟩

/-- Non-vacuity of C31: the history of C33's example (mask `True`), asked for the plate and answered inside it. -/
example : ∃ (lib : NumLib) (h : List (Call 1)) (c r : Crystal 1) (o : List String) (l : AnyLayer 1),
    MasksFit h ∧ NewLayers h ∧ (newCrystal exampleExpansion false 1 1).Orders lib h ∧
    (newCrystal exampleExpansion false 1 1).run lib h = .ok c ∧ o.Nodup ∧
    c.solve lib o = .ok r ∧ "a" ∈ o ∧ r.layers "a" = some l ∧ Asked "Sref" h := by
  obtain ⟨c1, e0, h1, hi, ⟨c3, h3⟩, hg⟩ := example_new exampleLib
  obtain ⟨src, nm, ls, pos, Ss, st, k1, k2, k3, k4, -⟩ := (Crystal.solve_eq_ok (by decide)).1 h3
  obtain ⟨a, b, -, -, hb⟩ := k3 "a" (by simp)
  refine ⟨exampleLib, exampleHistory, { c1 with source := some exampleSource }, c3, ["Sref", "a", "Strans"], b,
    ?_, ?_, ?_, ?_, by decide, h3, by simp, hb, ?_⟩
  · intro s l; simp [exampleHistory]
  · intro x l hl
    simp only [exampleHistory, List.mem_cons, List.not_mem_nil, or_false, Call.register.injEq, reduceCtorEq] at hl
    obtain ⟨rfl, rfl⟩ := hl
    exact ⟨rfl, rfl, rfl⟩
  · simp [Crystal.Orders, exampleHistory]
  · simp only [exampleHistory, Crystal.run_cons, Crystal.run_nil, Crystal.call, e0]
    exact ⟨_, rfl, c1, h1, _, example_setSource hi, rfl⟩
  · simp [Asked, exampleHistory, Asks]

/-- Non-vacuity of the query theorem: the plate with mask `True`, at depth 1/8. -/
example : ∃ (c c1 c2 c3 : Crystal 1) (Ls : List (Layer 1)) (order : List String),
    FreshDevice c ["a"] (.inl true) Ls ((1 : ℝ) : ℂ) ((2 ^ 2 : ℝ) : ℂ) ∧
    c.setDevice ["a"] (.inl true) = .ok c1 ∧ c1.setSource 1 1 0 0 0 none = .ok c2 ∧
    SetOrder ("Sref" :: (["a"] ++ ["Strans"])) order ∧ c2.solve exampleLib order = .ok c3 ∧
    (∀ l ∈ Ls, 0 ≤ l.depth) ∧ ((Ls.take 0).map Layer.depth).sum < 1 / 8 ∧
    1 / 8 ≤ ((Ls.take 1).map Layer.depth).sum ∧ MaskAt (.inl true) 0 := by
  obtain ⟨c1, c2, c3, f, h1, h2, hs, ho, h3, -⟩ := example_run exampleLib two_pos true
  refine ⟨_, c1, c2, c3, _, _, example_fresh 2 true, h1, h2, ho, h3, ?_, ?_, ?_, rfl⟩
  · simp [Layer.uniform]
  · simp
  · norm_num [Layer.uniform]

/-- **C31** is false without outer media: `set_device(["a", "b"], [False, True])` on a crystal with
`void=True` keeps the modes of "a" (not asked for) and not those of "b" (asked for). -/
theorem C31_void_counterexample (lib : NumLib) : ∃ (c c1 c2 c3 : Crystal 1) (la lb : AnyLayer 1), c.void = true ∧
    c.setDevice ["a", "b"] (.inr [false, true]) = .ok c1 ∧ c1.setSource 1 1 0 0 0 none = .ok c2 ∧
    c2.solve lib ["a", "b"] = .ok c3 ∧ c3.layers "a" = some la ∧ c3.layers "b" = some lb ∧
    ¬ Asks ["a", "b"] (.inr [false, true]) "a" ∧ Asks ["a", "b"] (.inr [false, true]) "b" ∧
    la.W.isSome ∧ la.V.isSome ∧ la.L.isSome ∧ lb.W = none ∧ lb.V = none ∧ lb.L = none := by
  obtain ⟨c3, st, h1, -, h3, ha, hb, -⟩ := void_solve lib
  refine ⟨voidCrystal, voidCrystal1, _, c3, _, _, rfl, void_setDevice, h1, h3, ha, hb, ?_, ?_, ?_⟩
  · rintro (h | h | ⟨i, h, h'⟩)
    · simp at h
    · simp at h
    · simp only [MaskAt] at h'
      rcases i with _ | _ | i <;> simp at h h'
  · exact .inr (.inr ⟨1, rfl, rfl⟩)
  · simp [AnyLayer.W, AnyLayer.V, AnyLayer.L, Layer.store, voidPlate]

end Khepri
