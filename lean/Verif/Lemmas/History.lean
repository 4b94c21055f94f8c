import Verif.Lemmas.Positions
import Verif.Spec.History
import Verif.Lemmas.CrystalView
import Verif.Lemmas.SetDevice
import Verif.Lemmas.Extension
import Verif.Lemmas.Poynting

set_option linter.unusedSectionVars false

namespace Khepri

open Matrix

variable {N : ℕ}

theorem foldl_store_described (rs : List (Solved N)) (l : Layer N) :
    (rs.foldl Layer.store l).described = l.described := by
  induction rs generalizing l with
  | nil => rfl
  | cons r rs ih => rw [List.foldl_cons, ih]; rfl

theorem AnyLayer.solve_described {lib : NumLib} {l r : AnyLayer N} {kp : ℂ × ℂ} {wl : ℝ}
    (h : l.solve lib kp wl = .ok r) : r.described = l.described ∧ r.fields = l.fields := by
  cases l with
  | plain l =>
    obtain ⟨s, _, rfl⟩ := AnyLayer.solve_plain.1 h
    exact ⟨rfl, rfl⟩
  | ext l =>
    obtain ⟨M, rfl, x, base, mode, gs, depth, f, S, W, V, W0, V0, L, IC⟩ := l
    simp only [AnyLayer.solve, bind_eq_ok, ExtLayer.solve_eq_ok] at h
    obtain ⟨_, ⟨rs, ws, h1, h2, h3, h4, h5, rfl⟩, h⟩ := h
    simp only [pure, Except.pure, Except.ok.injEq] at h
    subst h
    simp only [AnyLayer.described, ExtLayer.described, foldl_store_described, AnyLayer.fields, and_true]
    rfl

theorem AnyLayer.solve_same {lib : NumLib} {l l' r : AnyLayer N} {kp : ℂ × ℂ} {wl : ℝ}
    (hd : l.described = l'.described) (h : l.solve lib kp wl = .ok r) :
    ∃ r', l'.solve lib kp wl = .ok r' ∧ SameResults r r' := by
  cases l with
  | plain l =>
    cases l' with
    | ext l' => simp [AnyLayer.described] at hd
    | plain l' =>
      obtain ⟨e, fm, d, f, W, V, L, S, IC⟩ := l
      obtain ⟨e', fm', d', f', W', V', L', S', IC'⟩ := l'
      simp only [AnyLayer.described, Layer.described, AnyLayer.plain.injEq, Layer.mk.injEq, and_true] at hd
      obtain ⟨rfl, rfl, rfl⟩ := hd
      obtain ⟨s, hs, rfl⟩ := AnyLayer.solve_plain.1 h
      refine ⟨_, AnyLayer.solve_plain.2 ⟨s, hs, rfl⟩, ?_⟩
      constructor
      · rfl
      · rfl
      all_goals
        intro h1 h2
        simp only [AnyLayer.fields] at h1 h2
        subst h1; subst h2
        first | rfl | (intro _ _; rfl)
  | ext l =>
    cases l' with
    | plain l' => simp [AnyLayer.described] at hd
    | ext l' =>
      obtain ⟨M, rfl, x, base, mode, gs, depth, f, S, W, V, W0, V0, L, IC⟩ := l
      obtain ⟨M', hM', x', base', mode', gs', depth', f', S', W', V', W0', V0', L', IC'⟩ := l'
      simp only [AnyLayer.described, ExtLayer.described, AnyLayer.ext.injEq, ExtLayer.mk.injEq] at hd
      obtain ⟨rfl, hd⟩ := hd
      obtain ⟨e, fm, d, bf, bW, bV, bL, bS, bIC⟩ := base
      obtain ⟨e', fm', d', bf', bW', bV', bL', bS', bIC'⟩ := base'
      simp only [heq_eq_eq, Layer.described, Layer.mk.injEq, and_true] at hd
      obtain ⟨rfl, ⟨rfl, rfl, rfl⟩, rfl, rfl, rfl⟩ := hd
      simp only [AnyLayer.solve, bind_eq_ok, ExtLayer.solve_eq_ok] at h
      obtain ⟨_, ⟨rs, ws, h1, h2, h3, h4, h5, rfl⟩, h⟩ := h
      simp only [pure, Except.pure, Except.ok.injEq] at h
      subst h
      refine ⟨_, by
        simp only [AnyLayer.solve, bind_eq_ok, ExtLayer.solve_eq_ok]
        exact ⟨_, ⟨rs, ws, h1, h2, h3, h4, h5, rfl⟩, rfl⟩, ?_⟩
      constructor
      · rfl
      · rfl
      all_goals
        intro h1 h2
        simp only [AnyLayer.fields] at h1 h2
        subst h1; subst h2
        first | rfl | (intro _ _; rfl)

namespace Crystal

/-- Solving gives the same results to crystals with the same description. -/
theorem solve_same {lib : NumLib} {c c' r : Crystal N} {names o o' : List String}
    (hv : c.void = c'.void) (hn : c.globalStacking = some names) (dn : c.globalStacking = c'.globalStacking)
    (dl : ∀ x ∈ names, (c.layers x).map AnyLayer.described = (c'.layers x).map AnyLayer.described)
    (dm : c.retainMask = c'.retainMask) (ds : c.source = c'.source)
    (ho : SetOrder names o) (ho' : SetOrder names o') (h : c.solve lib o = .ok r) :
    ∃ r', c'.solve lib o' = .ok r' ∧ r.stacked = r'.stacked ∧ r.stackPositions = r'.stackPositions ∧
      ∀ x ∈ names, ∃ m m', r.layers x = some m ∧ r'.layers x = some m' ∧ SameResults m m' := by
  obtain ⟨src, nm, ls, pos, Ss, st, h1, h2, h3, h4, h5, h6, h7, h8, h9⟩ := (solve_eq_ok ho.1).1 h
  obtain rfl : names = nm := by rw [hn] at h2; exact Option.some.inj h2
  have hn' : c'.globalStacking = some names := by rw [← dn, hn]
  have hs' : c'.source = some src := by rw [← ds, h1]
  -- layer by layer
  have key : ∀ x ∈ names, ∃ l' m m', c'.layers x = some l' ∧ r.layers x = some m ∧
      l'.solve lib src.kp src.wavelength = .ok m' ∧ SameResults m m' := by
    intro x hx
    obtain ⟨l, m, k1, k2, k3⟩ := h3 x ((ho.2 x).2 hx)
    have := dl x hx
    simp only [k1, Option.map_some] at this
    obtain ⟨l', hl', he⟩ := Option.map_eq_some_iff.1 this.symm
    obtain ⟨m', hm', hsame⟩ := AnyLayer.solve_same he.symm k2
    exact ⟨l', m, m', hl', k3, hm', hsame⟩
  classical
  have : Nonempty (AnyLayer N) := ⟨.plain (Layer.uniform c.expansion 1 0)⟩
  choose! l' m m' k using key
  let L' : String → Option (AnyLayer N) := fun x => if x ∈ names then some (m' x) else c'.layers x
  have hls : ls = names.map m := by
    refine forall₂_functional (R := fun x y => r.layers x = some y)
      (fun a b b' q q' => by rw [q] at q'; exact Option.some.inj q') h5 ?_
    rw [List.forall₂_map_right_iff, List.forall₂_same]
    exact fun x hx => (k x hx).2.1
  have hSs : List.Forall₂ (fun l S => AnyLayer.S l = some S) (names.map m') Ss := by
    rw [hls, List.forall₂_map_left_iff] at h7
    rw [List.forall₂_map_left_iff]
    refine (List.forall₂_iff_zip.2 ⟨(List.forall₂_iff_zip.1 h7).1, fun {a b} hab => ?_⟩)
    have := (List.forall₂_iff_zip.1 h7).2 hab
    rw [← (k a (List.of_mem_zip hab).1).2.2.2.S]
    exact this
  have hdep : (names.map m').map AnyLayer.depth = ls.map AnyLayer.depth := by
    rw [hls, List.map_map, List.map_map]
    exact List.map_congr_left fun x hx => (k x hx).2.2.2.depth.symm
  refine ⟨{ c' with layers := L', stackPositions := pos, stacked := some st }, ?_, ?_, ?_, ?_⟩
  · refine (solve_eq_ok ho'.1).2 ⟨src, names, names.map m', pos, Ss, st, hs', hn', ?_, ?_, ?_, ?_, hSs, ?_, rfl⟩
    · intro x hx
      have hx' := (ho'.2 x).1 hx
      refine ⟨l' x, m' x, (k x hx').1, (k x hx').2.2.1, ?_⟩
      simp [L', hx']
    · intro x hx
      have hx' : x ∉ names := fun h => hx ((ho'.2 x).2 h)
      simp [L', hx']
    · rw [List.forall₂_map_right_iff, List.forall₂_same]
      intro x hx
      simp [L', hx]
    · rw [← hv, hdep]; exact h6
    · rw [← dm]; exact h8
  · rw [h9]
  · rw [h9]
  · intro x hx
    refine ⟨m x, m' x, (k x hx).2.1, ?_, (k x hx).2.2.2⟩
    simp [L', hx]

/-- The order in which the set of required layers is visited has no effect. -/
theorem solve_order {lib : NumLib} {c r : Crystal N} {names o o' : List String}
    (ho : SetOrder names o) (ho' : SetOrder names o') (h : c.solve lib o = .ok r) :
    c.solve lib o' = .ok r := by
  obtain ⟨src, nm, ls, pos, Ss, st, h1, h2, h3, h4, h5, h6, h7, h8, h9⟩ := (solve_eq_ok ho.1).1 h
  refine (solve_eq_ok ho'.1).2 ⟨src, nm, ls, pos, Ss, st, h1, h2, ?_, ?_, h5, h6, h7, h8, h9⟩
  · intro x hx; exact h3 x ((ho.2 x).2 ((ho'.2 x).1 hx))
  · intro x hx; exact h4 x fun hx' => hx ((ho'.2 x).2 ((ho.2 x).1 hx'))

theorem enable_described (b : Bool) (l : AnyLayer N) : (l.enable b).described = l.described := by
  cases l <;> rfl

/-- The outer medium created when none was registered. -/
noncomputable def defaultHalf (c0 : Crystal N) (x : String) : Option (AnyLayer N) :=
  if x = "Sref" then some (AnyLayer.plain (Layer.halfInfinite c0.expansion true c0.epsi)).described
  else if x = "Strans" then some (AnyLayer.plain (Layer.halfInfinite c0.expansion false c0.epse)).described
  else none

/-- What the object holds, in terms of the calls made so far. -/
structure Holds (c0 c : Crystal N) (R : String → Option (AnyLayer N))
    (D : Option (List String × (Bool ⊕ List Bool))) (A : Option (ℝ × ℂ × ℂ × ℝ × ℝ × Option (ℂ × ℂ))) :
    Prop where
  expansion : c.expansion = c0.expansion
  void : c.void = c0.void
  epsi : c.epsi = c0.epsi
  epse : c.epse = c0.epse
  layers : ∀ x, (c.layers x).map AnyLayer.described = (R x).map AnyLayer.described ∨
    (R x = none ∧ (c.layers x).map AnyLayer.described = defaultHalf c0 x)
  stacking : c.globalStacking = D.map fun d => withOuter c0.void d.1
  mask : ∀ d, D = some d → c.retainMask = true :: (maskList d.1 d.2 ++ [true])
  present : ∀ names, c.globalStacking = some names → ∀ x ∈ names, (defaultHalf c0 x).isSome → (c.layers x).isSome
  source : ∀ a, A = some a → ∃ c2, c0.setSource a.1 a.2.1 a.2.2.1 a.2.2.2.1 a.2.2.2.2.1 a.2.2.2.2.2 = .ok c2 ∧
    c.source = c2.source
  noSource : A = none → c.source = none

theorem ensureHalf_layers (c : Crystal N) (s : List String) (x : String) (b : Bool) (eps : ℂ) (y : String) :
    ((c.ensureHalf s x b eps).layers y).map AnyLayer.described =
      if y = x ∧ x ∈ s ∧ c.layers x = none then
        some (AnyLayer.plain (Layer.halfInfinite c.expansion b eps)).described
      else (c.layers y).map AnyLayer.described := by
  unfold ensureHalf
  by_cases h1 : x ∈ s ∧ c.layers x = none
  · rw [if_pos (by simpa using h1)]
    by_cases hy : y = x
    · subst hy
      rw [if_pos ⟨rfl, h1⟩]
      simp only [setLayer, Function.update_self, Option.map_some]
      rfl
    · rw [if_neg (fun h => hy h.1)]
      simp only [setLayer, Function.update_of_ne hy]
  · rw [if_neg (by simpa using h1), if_neg (fun h => h1 h.2)]

theorem ensureHalf_rest (c : Crystal N) (s : List String) (x : String) (b : Bool) (eps : ℂ) :
    c.ensureHalf s x b eps = { c with layers := (c.ensureHalf s x b eps).layers } := by
  unfold ensureHalf
  split_ifs <;> rfl

theorem setDevice_holds {c0 c r : Crystal N} {R : String → Option (AnyLayer N)}
    {D : Option (List String × (Bool ⊕ List Bool))} {A : Option (ℝ × ℂ × ℂ × ℝ × ℝ × Option (ℂ × ℂ))}
    (h : Holds c0 c R D A) {s : List String} {m : Bool ⊕ List Bool} (hr : c.setDevice s m = .ok r) :
    Holds c0 r R (some (s, m)) A := by
  unfold Crystal.setDevice at hr
  simp only [enableFields_eq_ok] at hr
  obtain ⟨-, rfl⟩ := hr
  set st := withOuter c.void s with hst
  set c1 := c.ensureHalf st "Sref" true c.epsi with hc1
  have e1 : c1.expansion = c.expansion := by rw [hc1, ensureHalf_rest]
  set c2 := c1.ensureHalf st "Strans" false c.epse with hc2
  have hl : ∀ y, (c2.layers y).map AnyLayer.described =
      if y ∈ st ∧ c.layers y = none then defaultHalf c0 y else (c.layers y).map AnyLayer.described := by
    intro y
    have n1 : c1.layers "Strans" = none ↔ c.layers "Strans" = none := by
      have := ensureHalf_layers c st "Sref" true c.epsi "Strans"
      rw [if_neg (fun q => absurd q.1 (by decide)), ← hc1] at this
      rw [← Option.map_eq_none_iff, this, Option.map_eq_none_iff]
    rw [hc2, ensureHalf_layers, hc1, ensureHalf_layers, ← hc1, e1]
    simp only [n1, defaultHalf, h.expansion, h.epsi, h.epse]
    by_cases ha : y = "Sref"
    · subst ha
      simp
    · by_cases hb : y = "Strans"
      · subst hb
        simp
      · simp only [ha, hb, false_and, if_false]
        split_ifs with hq
        · rw [hq.2]; rfl
        · rfl
  have hrest : c2 = { c with layers := c2.layers } := by
    rw [hc2, ensureHalf_rest, hc1, ensureHalf_rest]
  refine ⟨?_, ?_, ?_, ?_, ?_, ?_, ?_, ?_, ?_, ?_⟩
  · rw [hrest]; exact h.expansion
  · rw [hrest]; exact h.void
  · rw [hrest]; exact h.epsi
  · rw [hrest]; exact h.epse
  · intro x
    simp only [Option.map_map, Function.comp_def, enable_described]
    have := hl x
    rw [show Option.map (fun x => AnyLayer.described x) (c2.layers x) = _ from this]
    split_ifs with hq
    · right
      refine ⟨?_, rfl⟩
      rcases h.layers x with h1 | h1
      · rw [hq.2] at h1
        simpa using h1.symm
      · exact h1.1
    · exact h.layers x
  · simp only [Option.map_some, hst, h.void]
  · rintro d hd
    cases hd
    rfl
  · intro names hn x hx hd
    simp only [Option.some.injEq] at hn
    subst hn
    simp only [Option.isSome_map]
    have := hl x
    rw [← Option.isSome_map (f := AnyLayer.described), this]
    split_ifs with hq
    · exact hd
    · simp only [not_and] at hq
      rw [Option.isSome_map, Option.isSome_iff_ne_none]
      exact hq hx
  · intro a ha
    obtain ⟨c3, h1, h2⟩ := h.source a ha
    refine ⟨c3, h1, ?_⟩
    rw [← h2]
    simp only
    rw [hrest]
  · intro ha
    simp only
    rw [hrest]; exact h.noSource ha

theorem setSource_rest {c r : Crystal N} {wl : ℝ} {te tm : ℂ} {theta phi : ℝ} {kp : Option (ℂ × ℂ)}
    (hr : c.setSource wl te tm theta phi kp = .ok r) : r = { c with source := r.source } ∧ r.source ≠ none := by
  unfold Crystal.setSource at hr
  simp only [bind_eq_ok] at hr
  obtain ⟨k, hk, hr⟩ := hr
  split_ifs at hr with hw
  · simp [throw, throwThe, MonadExceptOf.throw] at hr
  simp only [pure, Except.pure, Except.ok.injEq] at hr
  subst hr
  exact ⟨rfl, by simp⟩

theorem setSource_epsi {c c' r : Crystal N} (he : c.epsi = c'.epsi) {wl : ℝ} {te tm : ℂ} {theta phi : ℝ}
    {kp : Option (ℂ × ℂ)} (hr : c.setSource wl te tm theta phi kp = .ok r) :
    ∃ r', c'.setSource wl te tm theta phi kp = .ok r' ∧ r.source = r'.source := by
  unfold Crystal.setSource at hr ⊢
  rw [he] at hr
  simp only [bind_eq_ok] at hr ⊢
  obtain ⟨k, hk, hr⟩ := hr
  split_ifs at hr with hw
  · simp [throw, throwThe, MonadExceptOf.throw] at hr
  simp only [pure, Except.pure, Except.ok.injEq] at hr
  exact ⟨_, ⟨k, hk, by rw [if_neg hw]; rfl⟩, by rw [← hr]⟩

theorem solve_holds {lib : NumLib} {c0 c r : Crystal N} {R : String → Option (AnyLayer N)}
    {D : Option (List String × (Bool ⊕ List Bool))} {A : Option (ℝ × ℂ × ℂ × ℝ × ℝ × Option (ℂ × ℂ))}
    (h : Holds c0 c R D A) {o : List String} (hnd : o.Nodup) (hr : c.solve lib o = .ok r) :
    Holds c0 r R D A := by
  obtain ⟨src, nm, ls, pos, Ss, st, h1, h2, h3, h4, h5, h6, h7, h8, h9⟩ := (solve_eq_ok hnd).1 hr
  have hl : ∀ x, (r.layers x).map AnyLayer.described = (c.layers x).map AnyLayer.described := by
    intro x
    by_cases hx : x ∈ o
    · obtain ⟨l, m, k1, k2, k3⟩ := h3 x hx
      rw [k1, k3, Option.map_some, Option.map_some, (AnyLayer.solve_described k2).1]
    · rw [h4 x hx]
  refine ⟨?_, ?_, ?_, ?_, ?_, ?_, ?_, ?_, ?_, ?_⟩
  · rw [h9]; exact h.expansion
  · rw [h9]; exact h.void
  · rw [h9]; exact h.epsi
  · rw [h9]; exact h.epse
  · intro x; rw [hl x]; exact h.layers x
  · rw [h9]; exact h.stacking
  · rw [h9]; exact h.mask
  · intro names hn x hx hd
    rw [h9] at hn
    rw [← Option.isSome_map (f := AnyLayer.described), hl, Option.isSome_map]
    exact h.present names hn x hx hd
  · rw [h9]; exact h.source
  · rw [h9]; exact h.noSource

theorem setLayer_holds {c0 c : Crystal N} {R : String → Option (AnyLayer N)}
    {D : Option (List String × (Bool ⊕ List Bool))} {A : Option (ℝ × ℂ × ℂ × ℝ × ℝ × Option (ℂ × ℂ))}
    (h : Holds c0 c R D A) (y : String) (l : AnyLayer N) :
    Holds c0 (c.setLayer y l) (fun x => if y = x then some l else R x) D A := by
  refine ⟨h.expansion, h.void, h.epsi, h.epse, ?_, h.stacking, h.mask, ?_, h.source, h.noSource⟩
  · intro x
    simp only [setLayer]
    by_cases hx : y = x
    · subst hx
      simp
    · rw [Function.update_of_ne (fun q => hx q.symm), if_neg hx]
      exact h.layers x
  · intro names hn x hx hd
    simp only [setLayer]
    by_cases hx' : x = y
    · subst hx'; simp
    · rw [Function.update_of_ne hx']; exact h.present names hn x hx hd

theorem run_cons {lib : NumLib} {c r : Crystal N} {k : Call N} {h : List (Call N)} :
    c.run lib (k :: h) = .ok r ↔ ∃ c1, c.call lib k = .ok c1 ∧ c1.run lib h = .ok r := by
  unfold Crystal.run
  rw [List.foldlM_cons, bind_eq_ok]

theorem run_nil {lib : NumLib} {c r : Crystal N} : c.run lib [] = .ok r ↔ c = r := by
  unfold Crystal.run
  simp [pure, Except.pure]

theorem run_holds_aux {lib : NumLib} {c0 : Crystal N} : ∀ {h : List (Call N)} {c r : Crystal N}
    {R : String → Option (AnyLayer N)}
    {D : Option (List String × (Bool ⊕ List Bool))} {A : Option (ℝ × ℂ × ℂ × ℝ × ℝ × Option (ℂ × ℂ))},
    Holds c0 c R D A → c.Orders lib h → c.run lib h = .ok r →
    Holds c0 r (fun x => h.foldl (fun last k => match k with
        | .register y l => if y = x then some l else last
        | _ => last) (R x))
      (h.foldl (fun last k => match k with
        | .device s m => some (s, m)
        | _ => last) D)
      (h.foldl (fun last k => match k with
        | .source wl te tm theta phi kp => some (wl, te, tm, theta, phi, kp)
        | _ => last) A)
  | [], c, r, R, D, A, hH, _, hr => by
    rw [run_nil] at hr; subst hr
    exact hH
  | k :: h, c, r, R, D, A, hH, ho, hr => by
    obtain ⟨c1, h1, h2⟩ := run_cons.1 hr
    have ho' := ho.2 c1 h1
    cases k with
    | register x l =>
      simp only [Crystal.call, Except.ok.injEq] at h1
      subst h1
      have := run_holds_aux (h := h) (setLayer_holds hH x l) ho' h2
      exact this
    | device s m =>
      have := run_holds_aux (h := h) (setDevice_holds hH h1) ho' h2
      exact this
    | source wl te tm th ph kp =>
      have key : Holds c0 c1 R D (some (wl, te, tm, th, ph, kp)) := ?_
      · have := run_holds_aux (h := h) key ho' h2
        exact this
      obtain ⟨e, -⟩ := setSource_rest h1
      refine ⟨?_, ?_, ?_, ?_, ?_, ?_, ?_, ?_, ?_, by simp⟩
      · rw [e]; exact hH.expansion
      · rw [e]; exact hH.void
      · rw [e]; exact hH.epsi
      · rw [e]; exact hH.epse
      · rw [e]; exact hH.layers
      · rw [e]; exact hH.stacking
      · rw [e]; exact hH.mask
      · rw [e]; exact hH.present
      · rintro a ha
        cases ha
        exact setSource_epsi hH.epsi h1
    | solve order =>
      have := run_holds_aux (h := h) (solve_holds hH (ho.1 order rfl) h1) ho' h2
      exact this

theorem run_holds {lib : NumLib} {e : Expansion N} {void : Bool} {epsi epse : ℂ} {h : List (Call N)}
    {r : Crystal N} (ho : (newCrystal e void epsi epse).Orders lib h)
    (hr : (newCrystal e void epsi epse).run lib h = .ok r) :
    Holds (newCrystal e void epsi epse) r (fun x => registered x h) (lastDevice h) (lastSource h) := by
  refine run_holds_aux (R := fun _ => none) (D := none) (A := none) ?_ ho hr
  refine ⟨rfl, rfl, rfl, rfl, fun _ => .inl rfl, rfl, by simp, ?_, by simp, fun _ => rfl⟩
  intro names hn
  simp [newCrystal] at hn

/-- Histories describing the same thing leave crystals on which `solve` has the same effect. -/
theorem history_solve {lib : NumLib} {e : Expansion N} {void : Bool} {epsi epse : ℂ} {h h' : List (Call N)}
    {c c' r : Crystal N} (hd : SameDescription h h')
    (ho : (newCrystal e void epsi epse).Orders lib h) (ho' : (newCrystal e void epsi epse).Orders lib h')
    (hc : (newCrystal e void epsi epse).run lib h = .ok c)
    (hc' : (newCrystal e void epsi epse).run lib h' = .ok c')
    {names o o' : List String} (hn : c.globalStacking = some names)
    (hs : SetOrder names o) (hs' : SetOrder names o') (hr : c.solve lib o = .ok r) :
    ∃ r', c'.solve lib o' = .ok r' ∧ r.stacked = r'.stacked ∧ r.stackPositions = r'.stackPositions ∧
      ∀ x ∈ names, ∃ m m', r.layers x = some m ∧ r'.layers x = some m' ∧ SameResults m m' := by
  have H := run_holds ho hc
  have H' := run_holds ho' hc'
  have hst : c.globalStacking = c'.globalStacking := by rw [H.stacking, H'.stacking, hd.device]
  have hn' : c'.globalStacking = some names := by rw [← hst, hn]
  obtain ⟨⟨s, m⟩, hD, hnm⟩ : ∃ d, lastDevice h = some d ∧ withOuter void d.1 = names := by
    have := H.stacking
    rw [hn] at this
    obtain ⟨d, h1, h2⟩ := Option.map_eq_some_iff.1 this.symm
    exact ⟨d, h1, h2⟩
  refine solve_same (H.void.trans H'.void.symm) hn hst ?_ ?_ ?_ hs hs' hr
  · intro x hx
    have hR := hd.layers s m hD x (by
      rw [← hnm] at hx
      unfold withOuter at hx
      split_ifs at hx
      · simp [hx]
      · simp only [List.mem_cons, List.mem_append, List.not_mem_nil, or_false] at hx ⊢
        tauto)
    rcases H.layers x with a | ⟨a1, a2⟩ <;> rcases H'.layers x with b | ⟨b1, b2⟩
    · rw [a, b, hR]
    · rw [b1] at hR
      rw [hR] at a
      cases hdf : defaultHalf (newCrystal e void epsi epse) x with
      | none => rw [a, b2, hdf]; rfl
      | some l =>
        have := H.present names hn x hx (by rw [hdf]; rfl)
        simp only [Option.map_none, Option.map_eq_none_iff] at a
        rw [a] at this
        simp at this
    · rw [a1] at hR
      rw [← hR] at b
      cases hdf : defaultHalf (newCrystal e void epsi epse) x with
      | none => rw [b, a2, hdf]; rfl
      | some l =>
        have := H'.present names hn' x hx (by rw [hdf]; rfl)
        simp only [Option.map_none, Option.map_eq_none_iff] at b
        rw [b] at this
        simp at this
    · rw [a2, b2]
  · rw [H.mask _ hD, H'.mask _ (hd.device ▸ hD)]
  · cases hA : lastSource h with
    | none => rw [H.noSource hA, H'.noSource (hd.source ▸ hA)]
    | some a =>
      obtain ⟨c2, k1, k2⟩ := H.source a hA
      obtain ⟨c3, k3, k4⟩ := H'.source a (hd.source ▸ hA)
      rw [k1] at k3
      cases k3
      rw [k2, k4]

end Crystal

theorem device_stack_aux {lib : NumLib} : ∀ {h : List (Call N)} {c r : Crystal N}
    {D : Option (List String × (Bool ⊕ List Bool))}, c.Orders lib h → c.deviceStack = D.map Prod.fst →
    c.run lib h = .ok r → r.deviceStack = (h.foldl (fun last k => match k with
        | .device s m => some (s, m)
        | _ => last) D).map Prod.fst
  | [], c, r, D, _, hD, hr => by rw [Crystal.run_nil] at hr; rw [← hr]; exact hD
  | k :: h, c, r, D, ho, hD, hr => by
    obtain ⟨c1, h1, h2⟩ := Crystal.run_cons.1 hr
    have ho' := ho.2 c1 h1
    cases k with
    | register x l =>
      simp only [Crystal.call, Except.ok.injEq] at h1
      exact device_stack_aux (h := h) ho' (by rw [← h1]; exact hD) h2
    | device s m =>
      refine device_stack_aux (h := h) (D := some (s, m)) ho' ?_ h2
      simp only [Crystal.call, Crystal.setDevice, Crystal.enableFields_eq_ok] at h1
      obtain ⟨-, rfl⟩ := h1
      rfl
    | source wl te tm th ph kp =>
      obtain ⟨e, -⟩ := Crystal.setSource_rest h1
      exact device_stack_aux (h := h) ho' (by rw [e]; exact hD) h2
    | solve o =>
      obtain ⟨_, _, _, _, _, _, _, _, _, _, _, _, _, _, h9⟩ := (Crystal.solve_eq_ok (ho.1 o rfl)).1 h1
      exact device_stack_aux (h := h) ho' (by rw [h9]; exact hD) h2

theorem device_stack {lib : NumLib} {e : Expansion N} {void : Bool} {epsi epse : ℂ} {h : List (Call N)}
    {c : Crystal N} (ho : (newCrystal e void epsi epse).Orders lib h)
    (hc : (newCrystal e void epsi epse).run lib h = .ok c) {s : List String} {m : Bool ⊕ List Bool}
    (hD : lastDevice h = some (s, m)) : c.deviceStack = some s := by
  have := device_stack_aux (D := none) ho rfl hc
  rw [this]
  rw [show h.foldl (fun last k => match k with
        | .device s m => some (s, m)
        | _ => last) none = lastDevice h from rfl, hD]
  rfl

/-- What a solved device with outer media without thickness holds. -/
theorem solved_view {lib : NumLib} {e : Expansion N} {epsi epse : ℂ} {h : List (Call N)}
    {c r : Crystal N} (ho : (newCrystal e false epsi epse).Orders lib h)
    (hc : (newCrystal e false epsi epse).run lib h = .ok c)
    (hout : ∀ x l, x = "Sref" ∨ x = "Strans" → registered x h = some l → l.depth = 0)
    {s : List String} {m : Bool ⊕ List Bool} (hD : lastDevice h = some (s, m))
    {o : List String} (hs : SetOrder ("Sref" :: (s ++ ["Strans"])) o) (hr : c.solve lib o = .ok r) :
    ∃ lr ls lt, r.layers "Sref" = some lr ∧
      List.Forall₂ (fun x l => r.layers x = some l ∧ ∀ l0, registered x h = some l0 → l.depth = l0.depth) s ls ∧
      List.Forall₂ (fun x (l : AnyLayer N) => registered x h = none → l.depth = 0) s ls ∧
      r.layers "Strans" = some lt ∧ r.stackPositions = Crystal.devicePositions (ls.map AnyLayer.depth) ∧
      r.deviceStack = some s ∧ r.globalStacking = some ("Sref" :: (s ++ ["Strans"])) ∧
      r.retainMask = true :: (Crystal.maskList s m ++ [true]) := by
  have H := Crystal.run_holds ho hc
  have H' := Crystal.solve_holds H hs.1 hr
  obtain ⟨src, nm, ls, pos, Ss, st, h1, h2, h3, h4, h5, h6, h7, h8, h9⟩ := (Crystal.solve_eq_ok hs.1).1 hr
  have hn : c.globalStacking = some ("Sref" :: (s ++ ["Strans"])) := by
    rw [H.stacking, hD]; rfl
  rw [hn] at h2; cases h2
  have hv : c.void = false := H.void
  have hdep : ∀ l : AnyLayer N, l.described.depth = l.depth := fun l => by cases l <;> rfl
  -- the outer media have no thickness
  have half : ∀ x, (x = "Sref" ∨ x = "Strans") → ∀ l, r.layers x = some l → l.depth = 0 := by
    intro x hx l hl
    rcases H'.layers x with a | ⟨-, a⟩
    · rw [hl] at a
      simp only [Option.map_some] at a
      obtain ⟨l0, b, b'⟩ := Option.map_eq_some_iff.1 a.symm
      rw [← hdep, ← b', hdep]
      exact hout x l0 hx b
    · rw [hl] at a
      rcases hx with rfl | rfl <;>
      · simp only [Option.map_some, Crystal.defaultHalf, if_true, Option.some.injEq] at a
        cases l with
        | ext l => simp [AnyLayer.described] at a
        | plain l =>
          simp [AnyLayer.described, Layer.described, Layer.halfInfinite] at a
          exact a.2.2
  cases h5 with
  | @cons _ lr _ ls' hlr hrest =>
    obtain ⟨ls1, ls2, q1, q2, q3⟩ := forall₂_append_left hrest
    cases q2 with
    | @cons _ lt _ _ hlt hnil =>
      cases hnil
      subst q3
      have e1 : lr.depth = 0 := half _ (.inl rfl) lr hlr
      have e2 : lt.depth = 0 := half _ (.inr rfl) lt hlt
      rw [hv] at h6
      simp only [List.map_cons, List.map_append, List.map_nil, e1, e2, Crystal.positions_device,
        Except.ok.injEq] at h6
      subst h6
      refine ⟨lr, ls1, lt, hlr, ?_, q1.imp fun x l hl hn => ?_, hlt, by rw [h9], ?_, by rw [h9]; exact hn, by rw [h9]; exact H.mask _ hD⟩
      · refine q1.imp fun x l hl => ⟨hl, fun l0 hl0 => ?_⟩
        rcases H'.layers x with a | ⟨a, -⟩
        · rw [hl, hl0] at a
          simp only [Option.map_some, Option.some.injEq] at a
          rw [← hdep, a, hdep]
        · rw [hl0] at a; cases a
      · refine half x ?_ l hl
        rcases H'.layers x with a | ⟨-, a⟩
        · rw [hn, hl] at a; cases a
        · rw [hl] at a
          simp only [Option.map_some, Crystal.defaultHalf] at a
          split_ifs at a with i1 i2
          · exact .inl i1
          · exact .inr i2
      · have := device_stack ho hc hD
        rw [h9]; exact this

end Khepri
