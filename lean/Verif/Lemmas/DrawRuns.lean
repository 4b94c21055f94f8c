import Verif.Lemmas.DrawSeq

/-!
`from_numpy`: the run-length loop.
-/

set_option linter.unusedSectionVars false

namespace Khepri

namespace Drawing

theorem npUnique_mem {xs : List ℝ} {x : ℝ} : x ∈ npUnique xs ↔ x ∈ xs := by simp [npUnique]

theorem npUnique_nodup (xs : List ℝ) : (npUnique xs).Nodup := Finset.sort_nodup _ _

theorem npUnique_inj {xs : List ℝ} {i j : ℕ} {v : ℝ} (hi : (npUnique xs)[i]? = some v)
    (hj : (npUnique xs)[j]? = some v) : i = j := by
  obtain ⟨h1, e1⟩ := List.getElem?_eq_some_iff.1 hi
  obtain ⟨h2, e2⟩ := List.getElem?_eq_some_iff.1 hj
  exact (List.Nodup.getElem_inj_iff (npUnique_nodup xs)).1 (e1.trans e2.symm)

theorem pyIndexOf_ok {l : List ℝ} {p : ℝ → Prop} {v : ℝ} (hv : v ∈ l) (hp : ∀ x, p x ↔ x = v) :
    ∃ k, pyIndexOf l p = .ok k ∧ l[k]? = some v := by
  classical
  unfold pyIndexOf
  have h : (l.findIdx? fun x => decide (p x)).isSome := by
    rw [List.findIdx?_isSome, List.any_eq_true]
    exact ⟨v, hv, by simp [hp]⟩
  obtain ⟨k, hk⟩ := Option.isSome_iff_exists.1 h
  refine ⟨k, ?_, ?_⟩
  · have : (List.findIdx? (fun x => @decide (p x) (Classical.propDecidable _)) l) = some k := by
      convert hk
    rw [this]
  · obtain ⟨hk1, hk2, -⟩ := List.findIdx?_eq_some_iff_getElem.1 hk
    rw [List.getElem?_eq_getElem hk1]
    simpa [hp] using hk2

theorem pyIndexOf_absent {l : List ℝ} {p : ℝ → Prop} (h : ∀ x ∈ l, ¬ p x) : pyIndexOf l p = .error .value := by
  unfold pyIndexOf
  have : (List.findIdx? (fun x => @decide (p x) (Classical.propDecidable _)) l) = none := by
    rw [List.findIdx?_eq_none_iff]
    intro x hx
    simpa using h x hx
  rw [this]

/-- What the loop knows after the first `n` entries. -/
structure RunInv (xs : List ℝ) (b : ℝ) (n : ℕ) (st : RunState) (v : ℝ) : Prop where
  current : (npUnique xs)[st.current]? = some v
  previous : st.previous = st.current
  lt : st.start < n
  le : n ≤ xs.length
  const : ∀ i, st.start ≤ i → i < n → xs[i]? = some v
  left : ∀ i, i + 1 = st.start → xs[i]? ≠ some v
  mem : ∀ iv : ℕ × ℕ × ℝ, iv ∈ st.intervals ↔ MaximalRun xs iv.1 iv.2.1 iv.2.2 ∧ iv.2.2 ≠ b ∧ iv.2.1 ≤ st.start
  sorted : st.intervals.Pairwise fun p q => p.2.1 ≤ q.1

/-- The runs that end at `n` or before: the current one, if it ends there, and those before it. -/
theorem RunInv.runs {xs : List ℝ} {b : ℝ} {n : ℕ} {st : RunState} {v : ℝ} (h : RunInv xs b n st v)
    (hr : xs[n]? ≠ some v) {s e : ℕ} {w : ℝ} :
    MaximalRun xs s e w ∧ e ≤ n ↔ (MaximalRun xs s e w ∧ e ≤ st.start) ∨ (s = st.start ∧ e = n ∧ w = v) := by
  have hlt := h.lt
  constructor
  · rintro ⟨hm, he⟩
    by_cases h1 : e ≤ st.start
    · exact Or.inl ⟨hm, h1⟩
    · right
      have hne := hm.nonempty
      have hw : w = v := by
        have a1 := hm.const (e - 1) (by omega) (by omega)
        have a2 := h.const (e - 1) (by omega) (by omega)
        rw [a1] at a2; exact Option.some.inj a2
      subst hw
      have hen : e = n := by
        by_contra hn
        exact hm.right (h.const e (by omega) (by omega))
      refine ⟨?_, hen, rfl⟩
      rcases lt_trichotomy s st.start with h2 | h2 | h2
      · exact absurd (hm.const (st.start - 1) (by omega) (by omega)) (h.left _ (by omega))
      · exact h2
      · exact absurd (h.const (s - 1) (by omega) (by omega)) (hm.left _ (by omega))
  · rintro (⟨h1, h2⟩ | ⟨rfl, rfl, rfl⟩)
    · exact ⟨h1, by omega⟩
    · exact ⟨⟨h.lt, h.le, h.const, h.left, hr⟩, le_rfl⟩

theorem RunInv.step {xs : List ℝ} {b : ℝ} {n bg : ℕ} {st : RunState} {v x : ℝ} (h : RunInv xs b n st v)
    (hbg : (npUnique xs)[bg]? = some b) (hx : xs[n]? = some x) :
    ∃ st', runStep (npUnique xs) bg st (x, n) = .ok st' ∧ RunInv xs b (n + 1) st' x := by
  obtain ⟨hn, hxn⟩ := List.getElem?_eq_some_iff.1 hx
  obtain ⟨k, hk, hkx⟩ := pyIndexOf_ok (l := npUnique xs) (p := (· = x)) (v := x)
    (npUnique_mem.2 (hxn ▸ List.getElem_mem hn)) (fun _ => Iff.rfl)
  have hlt := h.lt
  simp only [runStep, hk, ok_bind]
  by_cases hkp : k = st.previous
  · have hxv : x = v := by
      have := h.current
      rw [← h.previous, ← hkp, hkx] at this
      exact Option.some.inj this
    subst hxv
    rw [if_neg (by simpa using hkp)]
    refine ⟨_, rfl, ⟨hkx, ?_, ?_, hn, ?_, h.left, h.mem, h.sorted⟩⟩
    · exact hkp.symm
    · show st.start < n + 1; omega
    · intro i h1 h2
      rcases Nat.lt_succ_iff_lt_or_eq.1 h2 with h3 | rfl
      · exact h.const i h1 h3
      · exact hx
  · have hxv : x ≠ v := by
      rintro rfl
      exact hkp (npUnique_inj hkx (h.previous ▸ h.current))
    have hr : xs[n]? ≠ some v := by rw [hx]; simpa using hxv
    rw [if_pos hkp]
    have hleft : ∀ i, i + 1 = n → xs[i]? ≠ some x := by
      intro i hi
      rw [h.const i (by omega) (by omega)]
      simpa using hxv.symm
    have hconst : ∀ i, n ≤ i → i < n + 1 → xs[i]? = some x := by
      intro i h1 h2
      have : i = n := by omega
      rw [this, hx]
    by_cases hpb : st.previous = bg
    · have hvb : v = b := by
        have := h.current
        rw [← h.previous, hpb, hbg] at this
        exact (Option.some.inj this).symm
      rw [if_neg (by simpa using hpb)]
      refine ⟨_, rfl, ⟨hkx, rfl, Nat.lt_succ_self n, hn, hconst, hleft, ?_, h.sorted⟩⟩
      rintro ⟨s, e, w⟩
      have := h.runs hr (s := s) (e := e) (w := w)
      simp only [h.mem]
      constructor
      · rintro ⟨h1, h2, h3⟩; exact ⟨h1, h2, by omega⟩
      · rintro ⟨h1, h2, h3⟩
        rcases this.1 ⟨h1, h3⟩ with ⟨h4, h5⟩ | ⟨-, -, h4⟩
        · exact ⟨h4, h2, h5⟩
        · exact absurd (h4.trans hvb) h2
    · have hvb : v ≠ b := by
        rintro rfl
        exact hpb (npUnique_inj (h.previous ▸ h.current) hbg)
      rw [if_pos hpb]
      have hg : pyGet (npUnique xs) st.previous = .ok v := by
        rw [pyGet_eq_ok, h.previous]; exact h.current
      simp only [hg, ok_bind]
      refine ⟨_, rfl, ⟨hkx, rfl, Nat.lt_succ_self n, hn, hconst, hleft, ?_, ?_⟩⟩
      · rintro ⟨s, e, w⟩
        have := h.runs hr (s := s) (e := e) (w := w)
        simp only [List.mem_append, List.mem_singleton, h.mem, Prod.mk.injEq]
        constructor
        · rintro (⟨h1, h2, h3⟩ | h1)
          · exact ⟨h1, h2, by omega⟩
          · have h2 := this.2 (Or.inr h1)
            exact ⟨h2.1, by rw [h1.2.2]; exact hvb, h2.2⟩
        · rintro ⟨h1, h2, h3⟩
          rcases this.1 ⟨h1, h3⟩ with ⟨h4, h5⟩ | h4
          · exact Or.inl ⟨h4, h2, h5⟩
          · exact Or.inr h4
      · rw [List.pairwise_append]
        refine ⟨h.sorted, List.pairwise_singleton _ _, ?_⟩
        intro p hp q hq
        rw [List.mem_singleton.1 hq]
        exact ((h.mem p).1 hp).2.2

theorem RunInv.loop {xs : List ℝ} {b : ℝ} {bg : ℕ} (hbg : (npUnique xs)[bg]? = some b) :
    ∀ (m n : ℕ) {st : RunState} {v : ℝ}, n + m = xs.length → RunInv xs b n st v →
      ∃ st' v', (xs.zipIdx.drop n).foldlM (runStep (npUnique xs) bg) st = .ok st' ∧ RunInv xs b xs.length st' v' := by
  intro m
  induction m with
  | zero =>
    intro n st v hn h
    rw [List.drop_of_length_le (by simp; omega)]
    rw [Nat.add_zero] at hn
    exact ⟨st, v, rfl, hn ▸ h⟩
  | succ m ih =>
    intro n st v hn h
    have hlt : n < xs.zipIdx.length := by simp; omega
    rw [List.drop_eq_getElem_cons hlt]
    have hlt' : n < xs.length := by omega
    obtain ⟨st1, h1, h2⟩ := h.step hbg (List.getElem?_eq_getElem hlt')
    obtain ⟨st', v', h3, h4⟩ := ih (n + 1) (by omega) h2
    refine ⟨st', v', ?_, h4⟩
    rw [List.foldlM_cons, List.getElem_zipIdx, Nat.zero_add, h1, ok_bind, h3]

theorem materialIntervals_ok {xs : List ℝ} {b : ℝ} {bg : PyNum} (hb : b ∈ xs) (hv : bg.val = b) :
    ∃ ivs, materialIntervals (npUnique xs) xs bg = .ok ivs ∧
      (∀ iv : ℕ × ℕ × ℝ, iv ∈ ivs ↔ MaximalRun xs iv.1 iv.2.1 iv.2.2 ∧ iv.2.2 ≠ b) ∧
      ivs.Pairwise fun p q => p.2.1 ≤ q.1 := by
  have hpos : 0 < xs.length := List.length_pos_of_mem hb
  obtain ⟨k, hk, hkx⟩ := pyIndexOf_ok (l := npUnique xs) (p := (· = xs[0])) (v := xs[0])
    (npUnique_mem.2 (List.getElem_mem hpos)) (fun _ => Iff.rfl)
  obtain ⟨kb, hkb, hkbx⟩ := pyIndexOf_ok (l := npUnique xs) (p := fun m => ((m : ℝ) : ℂ) = bg.val) (v := b)
    (npUnique_mem.2 hb) (fun x => by rw [hv]; exact Complex.ofReal_inj)
  have h0 : pyGet xs 0 = .ok xs[0] := by rw [pyGet_eq_ok]; exact List.getElem?_eq_getElem hpos
  have hinv : RunInv xs b 1 ⟨k, k, 0, []⟩ xs[0] := by
    refine ⟨hkx, rfl, by show 0 < 1; omega, hpos, ?_, ?_, ?_, List.Pairwise.nil⟩
    · intro i _ h2
      have : i = 0 := by omega
      subst this
      exact List.getElem?_eq_getElem hpos
    · intro i hi; simp only at hi; omega
    · rintro ⟨s, e, w⟩
      simp only [List.not_mem_nil, false_iff]
      rintro ⟨h1, -, h3⟩
      have := h1.nonempty
      omega
  obtain ⟨st, v, h1, h2⟩ := RunInv.loop hkbx (xs.length - 1) 1 (by omega) hinv
  have hr : xs[xs.length]? ≠ some v := by simp
  simp only [materialIntervals, h0, hk, hkb, h1, ok_bind]
  by_cases hc : st.current = kb
  · have hvb : v = b := by
      have := h2.current
      rw [hc, hkbx] at this
      exact (Option.some.inj this).symm
    rw [if_neg (by simpa using hc)]
    refine ⟨_, rfl, ?_, h2.sorted⟩
    rintro ⟨s, e, w⟩
    have := h2.runs hr (s := s) (e := e) (w := w)
    rw [h2.mem]
    constructor
    · rintro ⟨h3, h4, -⟩; exact ⟨h3, h4⟩
    · rintro ⟨h3, h4⟩
      rcases this.1 ⟨h3, h3.inside⟩ with ⟨h4, h5⟩ | ⟨-, -, h5⟩
      · exact ⟨h3, ‹_›, h5⟩
      · exact absurd (h5.trans hvb) h4
  · have hvb : v ≠ b := by
      rintro rfl
      exact hc (npUnique_inj h2.current hkbx)
    rw [if_pos hc]
    have hg : pyGet (npUnique xs) st.current = .ok v := by
      rw [pyGet_eq_ok]; exact h2.current
    simp only [hg, ok_bind]
    refine ⟨_, rfl, ?_, ?_⟩
    · rintro ⟨s, e, w⟩
      have := h2.runs hr (s := s) (e := e) (w := w)
      simp only [List.mem_append, List.mem_singleton, h2.mem, Prod.mk.injEq]
      constructor
      · rintro (⟨h3, h4, -⟩ | h3)
        · exact ⟨h3, h4⟩
        · exact ⟨(this.2 (Or.inr h3)).1, by rw [h3.2.2]; exact hvb⟩
      · rintro ⟨h3, h4⟩
        rcases this.1 ⟨h3, h3.inside⟩ with ⟨h5, h6⟩ | h5
        · exact Or.inl ⟨h5, h4, h6⟩
        · exact Or.inr h5
    · rw [List.pairwise_append]
      refine ⟨h2.sorted, List.pairwise_singleton _ _, ?_⟩
      intro p hp q hq
      rw [List.mem_singleton.1 hq]
      exact ((h2.mem p).1 hp).2.2

/-- Every entry belongs to a maximal run. -/
theorem maximalRun_exists {xs : List ℝ} {i : ℕ} {v : ℝ} (hi : xs[i]? = some v) :
    ∃ s e, MaximalRun xs s e v ∧ s ≤ i ∧ i < e := by
  classical
  have hP : ∃ s, s ≤ i ∧ ∀ k, s ≤ k → k ≤ i → xs[k]? = some v :=
    ⟨i, le_rfl, fun k h1 h2 => by rw [le_antisymm h2 h1]; exact hi⟩
  have hil : i < xs.length := (List.getElem?_eq_some_iff.1 hi).1
  have hQ : ∃ e, i < e ∧ xs[e]? ≠ some v := ⟨xs.length, hil, by simp⟩
  obtain ⟨s1, s2⟩ := Nat.find_spec hP
  obtain ⟨e1, e2⟩ := Nat.find_spec hQ
  refine ⟨Nat.find hP, Nat.find hQ, ⟨by omega, Nat.find_min' hQ ⟨hil, by simp⟩, ?_, ?_, e2⟩, s1, e1⟩
  · intro k h1 h2
    rcases le_or_gt k i with h3 | h3
    · exact s2 k h1 h3
    · have := Nat.find_min hQ h2
      push Not at this
      exact this h3
  · intro t ht hc
    refine Nat.find_min hP (m := t) (by omega) ⟨by omega, fun k h1 h2 => ?_⟩
    rcases Nat.eq_or_lt_of_le h1 with h3 | h3
    · rw [← h3]; exact hc
    · exact s2 k (by omega) h2

/-- The rectangle `from_numpy` draws for pixels `s ≤ i < e` of `L`. -/
noncomputable def runOp (L : ℕ) (iv : ℕ × ℕ × ℝ) : DrawOp :=
  .rectangle (((((iv.2.1 : ℝ) - (L : ℝ) / 2) / L) + (((iv.1 : ℝ) - (L : ℝ) / 2) / L)) / 2, 0)
    ((((iv.2.1 : ℝ) - (L : ℝ) / 2) / L) - (((iv.1 : ℝ) - (L : ℝ) / 2) / L), 1) (.float iv.2.2)

theorem intervalRectangle_eq {nx ny : ℕ} (L : ℕ) (d : Drawing nx ny) (iv : ℕ × ℕ × ℝ) :
    intervalRectangle L d iv = (runOp L iv).call d := rfl

theorem foldlM_intervals {nx ny : ℕ} (L : ℕ) (ivs : List (ℕ × ℕ × ℝ)) (d : Drawing nx ny) :
    ivs.foldlM (intervalRectangle L) d = (ivs.map (runOp L)).foldlM (fun d op => op.call d) d := by
  rw [List.foldlM_map]; rfl

/-- Such a rectangle covers exactly the pixels of its run. -/
theorem runOp_covers {L ny s e i j : ℕ} {v : ℝ} (hL : 2 ≤ L) (hs : s < e) (he : e ≤ L) (hi : i < L) (hj : j < ny) :
    (runOp L (s, e, v)).Covers (pixelAt ((1, 0), (0, 1)) L ny i j) ↔ s ≤ i ∧ i < e := by
  have hL0 : (0 : ℝ) < L := by exact_mod_cast (by omega : 0 < L)
  have hL1 : (0 : ℝ) < (L : ℝ) - 1 := by
    have : (2 : ℝ) ≤ L := by exact_mod_cast hL
    linarith
  have hj' : |(-(1 / 2) + (j : ℝ) / ((ny : ℝ) - 1))| ≤ 1 / 2 := by
    rw [abs_le]
    rcases Nat.lt_or_ge 1 ny with h | h
    · have h1 : (0 : ℝ) < (ny : ℝ) - 1 := by
        have : (1 : ℝ) < ny := by exact_mod_cast h
        linarith
      have h2 : (j : ℝ) ≤ (ny : ℝ) - 1 := by
        have : j + 1 ≤ ny := hj
        have : (j : ℝ) + 1 ≤ ny := by exact_mod_cast this
        linarith
      have h3 : (0 : ℝ) ≤ (j : ℝ) / ((ny : ℝ) - 1) := by positivity
      have h4 : (j : ℝ) / ((ny : ℝ) - 1) ≤ 1 := (div_le_one h1).2 h2
      constructor <;> linarith
    · have : ny = 1 := by omega
      subst this
      norm_num
  have key : ∀ a b : ℕ, ((a : ℝ) / L ≤ (b : ℝ) / ((L : ℝ) - 1) ↔ a * (L - 1) ≤ b * L) ∧
      ((b : ℝ) / ((L : ℝ) - 1) ≤ (a : ℝ) / L ↔ b * L ≤ a * (L - 1)) := by
    intro a b
    have hc : ((L - 1 : ℕ) : ℝ) = (L : ℝ) - 1 := by push_cast [Nat.cast_sub (by omega : 1 ≤ L)]; ring
    rw [div_le_div_iff₀ hL0 hL1, div_le_div_iff₀ hL1 hL0, ← hc]
    constructor <;> norm_cast
  have e1 : s * (L - 1) ≤ i * L ↔ s ≤ i := by
    obtain ⟨M, rfl⟩ : ∃ M, L = M + 1 := ⟨L - 1, by omega⟩
    simp only [Nat.add_sub_cancel]
    constructor
    · intro h; by_contra hc
      have : i + 1 ≤ s := by omega
      nlinarith
    · intro h; nlinarith
  have e2 : i * L ≤ e * (L - 1) ↔ i < e := by
    obtain ⟨M, rfl⟩ : ∃ M, L = M + 1 := ⟨L - 1, by omega⟩
    simp only [Nat.add_sub_cancel]
    constructor
    · intro h; by_contra hc
      have : e ≤ i := by omega
      nlinarith
    · intro h
      have : i + 1 ≤ e := by omega
      nlinarith
  rw [← e1, ← e2, ← (key s i).1, ← (key e i).2]
  have a1 : ((e : ℝ) - (L : ℝ) / 2) / L = e / L - 1 / 2 := by field_simp
  have a2 : ((s : ℝ) - (L : ℝ) / 2) / L = s / L - 1 / 2 := by field_simp
  simp only [runOp, DrawOp.Covers, pixelAt, a1, a2, mul_one, mul_zero, add_zero, zero_add, sub_zero]
  constructor
  · rintro ⟨h, -⟩
    rw [abs_le] at h
    constructor <;> linarith [h.1, h.2]
  · rintro ⟨h1, h2⟩
    refine ⟨?_, by simpa using hj'⟩
    rw [abs_le]
    constructor <;> linarith

end Drawing

end Khepri
