import Verif.Lemmas.History

set_option linter.unusedSectionVars false

/-!
Which layers keep their modes, along a history of calls.
-/

namespace Khepri

variable {N : ℕ}

namespace Crystal

/-- The fields flags say who was asked, and layers not asked hold no modes. -/
def Flags (c : Crystal N) (A : String → Prop) : Prop :=
  ∀ x l, c.layers x = some l → (l.fields = true ↔ A x) ∧
    (l.fields = false → l.W = none ∧ l.V = none ∧ l.L = none)

theorem enable_flags (b : Bool) (l : AnyLayer N) :
    (l.enable b).fields = (l.fields || b) ∧ (l.enable b).W = l.W ∧ (l.enable b).V = l.V ∧ (l.enable b).L = l.L := by
  cases l <;> simp [AnyLayer.enable, AnyLayer.fields, AnyLayer.W, AnyLayer.V, AnyLayer.L]

theorem solve_flags {lib : NumLib} {l r : AnyLayer N} {kp : ℂ × ℂ} {wl : ℝ} (h : l.solve lib kp wl = .ok r) :
    r.fields = l.fields ∧ (l.fields = true → r.W.isSome ∧ r.V.isSome ∧ r.L.isSome ∧ r.IC.isSome) ∧
    ((l.fields = false → l.W = none ∧ l.V = none ∧ l.L = none) →
      r.fields = false → r.W = none ∧ r.V = none ∧ r.L = none) := by
  cases l with
  | plain l =>
    obtain ⟨s, _, rfl⟩ := AnyLayer.solve_plain.1 h
    refine ⟨rfl, fun hf => ?_, fun _ hf => ?_⟩
    · have hf' : l.fields = true := hf
      simp [AnyLayer.W, AnyLayer.V, AnyLayer.L, AnyLayer.IC, Layer.store, hf']
    · have hf' : l.fields = false := hf
      simp [AnyLayer.W, AnyLayer.V, AnyLayer.L, Layer.store, hf']
  | ext l =>
    obtain ⟨M, rfl, x, base, mode, gs, depth, f, S, W, V, W0, V0, L, IC⟩ := l
    simp only [AnyLayer.solve, bind_eq_ok, ExtLayer.solve_eq_ok] at h
    obtain ⟨_, ⟨rs, ws, h1, h2, h3, h4, h5, rfl⟩, h⟩ := h
    simp only [pure, Except.pure, Except.ok.injEq] at h
    subst h
    refine ⟨rfl, fun hf => ?_, fun hn hf => ?_⟩
    · have hf' : f = true := hf
      simp [AnyLayer.W, AnyLayer.V, AnyLayer.L, AnyLayer.IC, hf']
    · have hf' : f = false := hf
      subst hf'
      simpa [AnyLayer.W, AnyLayer.V, AnyLayer.L] using hn rfl

theorem ensureHalf_flags {c : Crystal N} {s : List String} {x : String} {b : Bool} {eps : ℂ} {A : String → Prop}
    (h : Flags c A) :
    ∀ y l, (c.ensureHalf s x b eps).layers y = some l →
      ((y = x ∧ l.fields = true) ∨ (l.fields = true ↔ A y)) ∧
      (l.fields = false → l.W = none ∧ l.V = none ∧ l.L = none) := by
  intro y l hl
  unfold ensureHalf at hl
  split_ifs at hl with h1
  · by_cases hy : y = x
    · subst hy
      simp only [setLayer, Function.update_self, Option.some.injEq] at hl
      subst hl
      exact ⟨.inl ⟨rfl, rfl⟩, fun hf => by simp [AnyLayer.fields] at hf⟩
    · simp only [setLayer, Function.update_of_ne hy] at hl
      exact ⟨.inr (h y l hl).1, (h y l hl).2⟩
  · exact ⟨.inr (h y l hl).1, (h y l hl).2⟩

theorem requested_iff {x : String} {l : List (String × Bool)} :
    requested x l = true ↔ (x, true) ∈ l := by
  rw [requested, List.any_eq_true]
  constructor
  · rintro ⟨⟨a, b⟩, h1, h2⟩
    simp only [Bool.and_eq_true, beq_iff_eq] at h2
    obtain ⟨rfl, rfl⟩ := h2
    exact h1
  · intro h; exact ⟨_, h, by simp⟩

theorem maskList_get {s : List String} {m : Bool ⊕ List Bool} {i : ℕ} {x : String} (hs : s[i]? = some x) :
    (maskList s m)[i]? = some true ↔ MaskAt m i := by
  cases m with
  | inl b =>
    have := (List.getElem?_eq_some_iff.1 hs).1
    simp [maskList, MaskAt, this]
  | inr l => rfl

theorem requested_asks {s : List String} {m : Bool ⊕ List Bool} (hm : (maskList s m).length = s.length) (x : String) :
    requested x (("Sref" :: (s ++ ["Strans"])).zip (true :: (maskList s m ++ [true]))) = true ↔ Asks s m x := by
  rw [requested_iff, List.zip_cons_cons, List.zip_append hm.symm]
  simp only [List.mem_cons, List.mem_append, Prod.mk.injEq, List.zip_cons_cons, List.zip_nil_left,
    List.not_mem_nil, or_false, and_true, Asks]
  have : (x, true) ∈ s.zip (maskList s m) ↔ ∃ i : ℕ, s[i]? = some x ∧ (maskList s m)[i]? = some true := by
    rw [List.mem_iff_getElem?]
    simp only [List.getElem?_zip_eq_some]
  rw [this]
  constructor
  · rintro (h | ⟨i, h1, h2⟩ | h)
    · exact .inl h
    · exact .inr (.inr ⟨i, h1, (maskList_get h1).1 h2⟩)
    · exact .inr (.inl h)
  · rintro (h | h | ⟨i, h1, h2⟩)
    · exact .inl h
    · exact .inr (.inr h)
    · exact .inr (.inl ⟨i, h1, (maskList_get h1).2 h2⟩)

theorem setDevice_flags {c r : Crystal N} {A : String → Prop} {s : List String} {m : Bool ⊕ List Bool}
    (hv : c.void = false) (h : Flags c A) (hm : (maskList s m).length = s.length)
    (hr : c.setDevice s m = .ok r) : Flags r (fun x => A x ∨ Asks s m x) := by
  unfold Crystal.setDevice at hr
  simp only [enableFields_eq_ok] at hr
  obtain ⟨-, rfl⟩ := hr
  intro x l hl
  simp only [withOuter, hv, Bool.false_eq_true, if_false] at hl
  obtain ⟨l0, h1, rfl⟩ := Option.map_eq_some_iff.1 hl
  obtain ⟨e1, e2, e3, e4⟩ := enable_flags (requested x (("Sref" :: (s ++ ["Strans"])).zip
    (true :: (maskList s m ++ [true])))) l0
  have hreq := requested_asks hm x
  -- the layer before enabling
  have h0 : ((l0.fields = true ∧ (x = "Sref" ∨ x = "Strans")) ∨ (l0.fields = true ↔ A x)) ∧
      (l0.fields = false → l0.W = none ∧ l0.V = none ∧ l0.L = none) := by
    set c1 := c.ensureHalf ("Sref" :: (s ++ ["Strans"])) "Sref" true c.epsi with hc1
    have f1 := ensureHalf_flags (s := "Sref" :: (s ++ ["Strans"])) (x := "Sref") (b := true) (eps := c.epsi) h
    rw [← hc1] at f1
    unfold ensureHalf at h1
    split_ifs at h1 with hq
    · by_cases hy : x = "Strans"
      · subst hy
        simp only [setLayer, Function.update_self, Option.some.injEq] at h1
        subst h1
        exact ⟨.inl ⟨rfl, .inr rfl⟩, fun hf => by simp [AnyLayer.fields] at hf⟩
      · simp only [setLayer, Function.update_of_ne hy] at h1
        obtain ⟨g1, g2⟩ := f1 x l0 h1
        exact ⟨g1.imp (fun g => ⟨g.2, .inl g.1⟩) id, g2⟩
    · obtain ⟨g1, g2⟩ := f1 x l0 h1
      exact ⟨g1.imp (fun g => ⟨g.2, .inl g.1⟩) id, g2⟩
  have key : let l := l0.enable (requested x (("Sref" :: (s ++ ["Strans"])).zip (true :: (maskList s m ++ [true]))))
      (l.fields = true ↔ A x ∨ Asks s m x) ∧ (l.fields = false → l.W = none ∧ l.V = none ∧ l.L = none) := by
    simp only
    rw [e1, e2, e3, e4, Bool.or_eq_true, hreq, Bool.or_eq_false_iff]
    refine ⟨?_, fun hf => h0.2 hf.1⟩
    rcases h0.1 with ⟨g1, g2⟩ | g
    · have : Asks s m x := g2.elim .inl fun g => .inr (.inl g)
      simp [this]
    · rw [g]
  cases m <;> exact key

theorem solve_flags' {lib : NumLib} {c r : Crystal N} {A : String → Prop} {o : List String} (ho : o.Nodup)
    (h : Flags c A) (hr : c.solve lib o = .ok r) : Flags r A := by
  obtain ⟨src, nm, ls, pos, Ss, st, h1, h2, h3, h4, -⟩ := (Crystal.solve_eq_ok ho).1 hr
  intro x l hl
  by_cases hx : x ∈ o
  · obtain ⟨a, b, k1, k2, k3⟩ := h3 x hx
    rw [hl] at k3; cases k3
    obtain ⟨q1, q2, q3⟩ := solve_flags k2
    obtain ⟨p1, p2⟩ := h x a k1
    exact ⟨by rw [q1]; exact p1, q3 p2⟩
  · rw [h4 x hx] at hl
    exact h x l hl

theorem run_flags_aux {lib : NumLib} : ∀ {h : List (Call N)} {c r : Crystal N} {A : String → Prop},
    c.void = false → Flags c A → MasksFit h → NewLayers h → c.Orders lib h → c.run lib h = .ok r →
    Flags r (fun x => h.foldl (fun asked k => match k with
      | .register y l => if y = x then l.fields = true else asked
      | .device s m => asked ∨ Asks s m x
      | _ => asked) (A x))
  | [], c, r, A, _, hf, _, _, _, hr => by rw [run_nil] at hr; rw [← hr]; exact hf
  | k :: h, c, r, A, hv, hf, hm, hn, ho, hr => by
    obtain ⟨c1, h1, h2⟩ := run_cons.1 hr
    have ho' := ho.2 c1 h1
    have hm' : MasksFit h := fun s l hs => hm s l (by simp [hs])
    have hn' : NewLayers h := fun x l hs => hn x l (by simp [hs])
    cases k with
    | register y l =>
      simp only [Crystal.call, Except.ok.injEq] at h1
      subst h1
      have key : Flags (c.setLayer y l) (fun x => if y = x then l.fields = true else A x) := by
        intro x a ha
        by_cases hx : x = y
        · subst hx
          simp only [setLayer, Function.update_self, Option.some.injEq] at ha
          subst ha
          exact ⟨by simp, fun _ => hn x l (by simp)⟩
        · simp only [setLayer, Function.update_of_ne hx] at ha
          simp only [if_neg (Ne.symm hx)]
          exact hf x a ha
      have := run_flags_aux (h := h) (c := c.setLayer y l) hv key hm' hn' ho' h2
      exact this
    | device s m =>
      have hml : (maskList s m).length = s.length := by
        cases m with
        | inl b => simp [maskList]
        | inr l => exact hm s l (by simp)
      have hv1 : c1.void = false := by
        simp only [Crystal.call, Crystal.setDevice, enableFields_eq_ok] at h1
        obtain ⟨-, rfl⟩ := h1
        simp only
        rw [ensureHalf_rest, ensureHalf_rest]
        exact hv
      have := run_flags_aux (h := h) hv1 (setDevice_flags hv hf hml h1) hm' hn' ho' h2
      exact this
    | source wl te tm th ph kp =>
      obtain ⟨e, -⟩ := setSource_rest h1
      have := run_flags_aux (h := h) (c := c1) (A := A) (by rw [e]; exact hv) (by rw [e]; exact hf) hm' hn' ho' h2
      exact this
    | solve o =>
      have hv1 : c1.void = false := by
        obtain ⟨_, _, _, _, _, _, _, _, _, _, _, _, _, _, h9⟩ := (Crystal.solve_eq_ok (ho.1 o rfl)).1 h1
        rw [h9]; exact hv
      have := run_flags_aux (h := h) hv1 (solve_flags' (ho.1 o rfl) hf h1) hm' hn' ho' h2
      exact this

theorem run_flags {lib : NumLib} {e : Expansion N} {epsi epse : ℂ} {h : List (Call N)} {r : Crystal N}
    (hm : MasksFit h) (hn : NewLayers h) (ho : (newCrystal e false epsi epse).Orders lib h)
    (hr : (newCrystal e false epsi epse).run lib h = .ok r) : Flags r (fun x => Asked x h) :=
  run_flags_aux (A := fun _ => False) rfl (fun x l hl => by simp [newCrystal] at hl) hm hn ho hr

end Crystal

end Khepri
