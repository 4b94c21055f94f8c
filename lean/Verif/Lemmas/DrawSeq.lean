import Verif.Lemmas.Draw

/-!
Sequences of drawing calls; the islands they record.
-/

set_option linter.unusedSectionVars false

namespace Khepri

section
variable {nx ny : ℕ}

theorem drawing_make_eq_ok {eps : PyNum} {lat : Option (R2 × R2)} {d : Drawing nx ny} :
    Drawing.make nx ny eps lat = .ok d ↔ (nx ≠ 0 ∧ ny ≠ 0) ∧
      d = ⟨lat.getD ((1, 0), (0, 1)), eps, eps.isComplex, fun _ _ => eps.val, []⟩ := by
  simp only [Drawing.make, bind_eq_ok, pyCheck_eq_ok]
  constructor
  · rintro ⟨_, h1, h2⟩
    simp only [pure, Except.pure, Except.ok.injEq] at h2
    exact ⟨h1, h2.symm⟩
  · rintro ⟨h1, h2⟩
    exact ⟨(), h1, by rw [h2]; rfl⟩

theorem drawing_make_ok {nx ny : ℕ} (eps : PyNum) (lat : Option (R2 × R2)) (hx : nx ≠ 0) (hy : ny ≠ 0) :
    Drawing.make nx ny eps lat =
      .ok ⟨lat.getD ((1, 0), (0, 1)), eps, eps.isComplex, fun _ _ => eps.val, []⟩ :=
  drawing_make_eq_ok.2 ⟨⟨hx, hy⟩, rfl⟩

theorem pyGet_of {α : Type} {l : List α} {i : ℕ} {a : α} (h : l[i]? = some a) : pyGet l i = .ok a :=
  pyGet_eq_ok.2 h

/-- Painting on a canvas that already holds something. -/
theorem paintedAs_cons {op : DrawOp} {ops : List DrawOp} {bg mid v : ℂ} {p : R2} (h : PaintedAs ops mid p v)
    (h1 : op.Covers p → mid = op.eps.val) (h2 : ¬ op.Covers p → mid = bg) : PaintedAs (op :: ops) bg p v := by
  rcases h with ⟨h3, h4⟩ | ⟨b, o, a, h3, h4, h5, h6⟩
  · by_cases hc : op.Covers p
    · exact Or.inr ⟨[], op, ops, rfl, hc, h3, by rw [h4, h1 hc]⟩
    · refine Or.inl ⟨?_, by rw [h4, h2 hc]⟩
      intro o ho
      rcases List.mem_cons.1 ho with rfl | ho
      · exact hc
      · exact h3 o ho
  · exact Or.inr ⟨op :: b, o, a, by rw [h3]; rfl, h4, h5, h6⟩

theorem draw_sequence (ops : List DrawOp) : ∀ {d0 d : Drawing nx ny},
    ops.foldlM (fun d op => op.call d) d0 = .ok d → (∀ op ∈ ops, op.Fits d0.lattice) →
      d.lattice = d0.lattice ∧ d.background = d0.background ∧ d.cplx = d0.cplx ∧
      ∀ (i : Fin nx) (j : Fin ny), PaintedAs ops (d0.canvas i j) (pixelAt d0.lattice nx ny i j) (d.canvas i j) := by
  induction ops with
  | nil =>
    intro d0 d h _
    simp only [List.foldlM_nil, pure, Except.pure, Except.ok.injEq] at h
    subst h
    exact ⟨rfl, rfl, rfl, fun i j => Or.inl ⟨by simp, rfl⟩⟩
  | cons op ops ih =>
    intro d0 d h hf
    simp only [List.foldlM_cons, bind_eq_ok] at h
    obtain ⟨d1, h1, h2⟩ := h
    have hd := DrawOp.call_draws h1
    obtain ⟨e1, e2, e3, e4⟩ := ih h2 (by rw [hd.lattice]; exact fun o ho => hf o (List.mem_cons_of_mem _ ho))
    have hfo := hf op List.mem_cons_self
    refine ⟨e1.trans hd.lattice, e2.trans hd.background, e3.trans hd.cplx, fun i j => ?_⟩
    have := e4 i j
    rw [hd.lattice] at this
    exact paintedAs_cons this (hd.inside hfo i j) (hd.outside hfo i j)

/-- What a call needs to be accepted. -/
def DrawOp.Valid (cplx : Bool) : DrawOp → Prop
  | .disc _ _ e => e.isComplex = true → cplx = true
  | .rectangle _ _ e => e.isComplex = true → cplx = true
  | .ellipse _ ab _ e => (e.isComplex = true → cplx = true) ∧ ab.1 ≠ 0 ∧ ab.2 ≠ 0
  | .parallelogram _ _ t e => (e.isComplex = true → cplx = true) ∧ Real.cos t ≠ 0

theorem paint_ok {d : Drawing nx ny} {mask : Fin nx → Fin ny → Prop} {eps : PyNum}
    (h : eps.isComplex = true → d.cplx = true) : ∃ d', d.paint mask eps = .ok d' ∧ d'.cplx = d.cplx :=
  ⟨_, Drawing.paint_eq_ok.2 ⟨h, rfl⟩, rfl⟩

theorem parallelogramLoop_ok {x y b h t : ℝ} {eps : PyNum} (hx : 0 < nx) (cols : List (Fin ny)) :
    ∀ {d : Drawing nx ny}, (eps.isComplex = true → d.cplx = true) →
      ∃ d', Drawing.parallelogramLoop x y b h t eps cols d = .ok d' ∧ d'.cplx = d.cplx := by
  induction cols with
  | nil => intro d _; exact ⟨d, rfl, rfl⟩
  | cons c rest ih =>
    intro d hd
    rw [Drawing.parallelogramLoop]
    split_ifs
    · exact ih hd
    · exact ⟨d, rfl, rfl⟩
    · obtain ⟨d1, h1, h2⟩ := paint_ok (d := d) (mask := fun k j => j = c ∧
        d.X k c > x - b / 2 + t * d.Y ⟨0, hx⟩ c ∧ d.X k c ≤ x - b / 2 + t * d.Y ⟨0, hx⟩ c + b) hd
      obtain ⟨d2, h3, h4⟩ := ih (d := d1) (by rw [h2]; exact hd)
      refine ⟨d2, ?_, h4.trans h2⟩
      simp only [h1, ok_bind, h3]

theorem DrawOp.call_ok {op : DrawOp} {d : Drawing nx ny} (hx : 0 < nx) (h : op.Valid d.cplx) :
    ∃ d', op.call d = .ok d' := by
  cases op with
  | disc xy r e =>
    obtain ⟨d1, h1, -⟩ := paint_ok (d := d)
      (mask := fun i j => Real.sqrt ((d.X i j - xy.1) ^ 2 + (d.Y i j - xy.2) ^ 2) < r) h
    exact ⟨_, by simp only [DrawOp.call, Drawing.disc, h1, ok_bind]; rfl⟩
  | rectangle xy wh e =>
    obtain ⟨d1, h1, -⟩ := paint_ok (d := d) (mask := fun i j => (d.X i j ≥ xy.1 - wh.1 / 2 ∧
      d.X i j ≤ xy.1 - wh.1 / 2 + wh.1) ∧ (d.Y i j ≥ xy.2 - wh.2 / 2 ∧ d.Y i j ≤ xy.2 - wh.2 / 2 + wh.2)) h
    exact ⟨_, by simp only [DrawOp.call, Drawing.rectangle, h1, ok_bind]; rfl⟩
  | ellipse xy ab r e =>
    simp only [DrawOp.call, Drawing.ellipse, pyCheck_ok h.2, ok_bind]
    rw [(Drawing.paint_eq_ok).2 ⟨h.1, rfl⟩]
    exact ⟨_, rfl⟩
  | parallelogram xy bh t e =>
    obtain ⟨d', h1, -⟩ := parallelogramLoop_ok (x := xy.1) (y := xy.2 - bh.2 / 2) (b := bh.1) (h := bh.2)
      (t := Real.tan t) (eps := e) hx (List.finRange ny) (d := d) h.1
    exact ⟨d', by simp only [DrawOp.call, Drawing.parallelogram, pyCheck_ok h.2, ok_bind, h1]⟩

theorem draw_sequence_ok (ops : List DrawOp) (hx : 0 < nx) : ∀ {d0 : Drawing nx ny},
    (∀ op ∈ ops, op.Valid d0.cplx) → ∃ d, ops.foldlM (fun d op => op.call d) d0 = .ok d := by
  induction ops with
  | nil => intro d0 _; exact ⟨d0, rfl⟩
  | cons op ops ih =>
    intro d0 h
    obtain ⟨d1, h1⟩ := DrawOp.call_ok hx (h op List.mem_cons_self)
    obtain ⟨d, h2⟩ := ih (d0 := d1) (by
      rw [(DrawOp.call_draws h1).cplx]; exact fun o ho => h o (List.mem_cons_of_mem _ ho))
    exact ⟨d, by simp only [List.foldlM_cons, h1, ok_bind, h2]⟩

/-! ### Islands -/

/-- What a call records. -/
noncomputable def DrawOp.recorded : DrawOp → List Island
  | .disc xy r e => [⟨.disc (0.5 + xy.1) (0.5 + xy.2) r, e.val⟩]
  | .rectangle xy wh e => [⟨.rectangle (0.5 + (xy.1 - wh.1 / 2)) (0.5 + (xy.2 - wh.2 / 2))
      (0.5 + (xy.1 - wh.1 / 2) + wh.1) (0.5 + (xy.2 - wh.2 / 2) + wh.2), e.val⟩]
  | .ellipse xy ab r e => [⟨.ellipse xy.1 xy.2 ab.1 ab.2 r, e.val⟩]
  | .parallelogram .. => []

theorem DrawOp.call_islands {op : DrawOp} {d d' : Drawing nx ny} (h : op.call d = .ok d') :
    d'.islands = d.islands ++ op.recorded := by
  cases op with
  | disc xy r e =>
    simp only [DrawOp.call, Drawing.disc, bind_eq_ok] at h
    obtain ⟨d1, h1, h2⟩ := h
    simp only [pure, Except.pure, Except.ok.injEq] at h2
    obtain ⟨-, rfl⟩ := Drawing.paint_eq_ok.1 h1
    subst h2; rfl
  | rectangle xy wh e =>
    simp only [DrawOp.call, Drawing.rectangle, bind_eq_ok] at h
    obtain ⟨d1, h1, h2⟩ := h
    simp only [pure, Except.pure, Except.ok.injEq] at h2
    obtain ⟨-, rfl⟩ := Drawing.paint_eq_ok.1 h1
    subst h2; rfl
  | ellipse xy ab r e =>
    simp only [DrawOp.call, Drawing.ellipse, bind_eq_ok] at h
    obtain ⟨_, -, d1, h1, h2⟩ := h
    simp only [pure, Except.pure, Except.ok.injEq] at h2
    obtain ⟨-, rfl⟩ := Drawing.paint_eq_ok.1 h1
    subst h2; rfl
  | parallelogram xy bh t e =>
    simp only [DrawOp.call, Drawing.parallelogram, bind_eq_ok] at h
    obtain ⟨_, -, h⟩ := h
    obtain ⟨-, -, -, e4, -⟩ := parallelogramLoop_draws _ (List.pairwise_lt_finRange ny) h
    rw [e4]; simp [DrawOp.recorded]

theorem draw_islands (ops : List DrawOp) : ∀ {d0 d : Drawing nx ny},
    ops.foldlM (fun d op => op.call d) d0 = .ok d → d.islands = d0.islands ++ ops.flatMap DrawOp.recorded := by
  induction ops with
  | nil =>
    intro d0 d h
    simp only [List.foldlM_nil, pure, Except.pure, Except.ok.injEq] at h
    subst h; simp
  | cons op ops ih =>
    intro d0 d h
    simp only [List.foldlM_cons, bind_eq_ok] at h
    obtain ⟨d1, h1, h2⟩ := h
    rw [ih h2, DrawOp.call_islands h1, List.flatMap_cons, List.append_assoc]

/-- A recorded disc or rectangle is the drawn one, moved by half a unit along both axes. -/
theorem DrawOp.recorded_simple {op : DrawOp} (h : op.Simple) : ∃ s : Island, op.recorded = [s] ∧
    s.eps = op.eps.val ∧ ∀ p : R2, s.Covers (p.1 + 1 / 2, p.2 + 1 / 2) ↔ op.Covers p := by
  cases op with
  | disc xy r e =>
    refine ⟨_, rfl, rfl, fun p => ?_⟩
    simp only [Island.Covers, DrawOp.Covers]
    have e1 : p.1 + 1 / 2 - (0.5 + xy.1) = p.1 - xy.1 := by norm_num; ring
    have e2 : p.2 + 1 / 2 - (0.5 + xy.2) = p.2 - xy.2 := by norm_num; ring
    rw [e1, e2]
  | rectangle xy wh e =>
    refine ⟨_, rfl, rfl, fun p => ?_⟩
    simp only [Island.Covers, DrawOp.Covers, abs_le]
    norm_num
    constructor
    · rintro ⟨⟨h1, h2⟩, h3, h4⟩
      refine ⟨⟨?_, ?_⟩, ?_, ?_⟩ <;> linarith
    · rintro ⟨⟨h1, h2⟩, h3, h4⟩
      refine ⟨⟨?_, ?_⟩, ?_, ?_⟩ <;> linarith
  | ellipse => exact absurd h (by simp [DrawOp.Simple])
  | parallelogram => exact absurd h (by simp [DrawOp.Simple])

open Classical in
/-- The islands of discs and rectangles add up the calls about a point. -/
theorem islandSum_simple {ops : List DrawOp} (h : ∀ op ∈ ops, op.Simple) (host : ℂ) (p : R2) :
    islandSum (ops.flatMap DrawOp.recorded) host (p.1 + 1 / 2, p.2 + 1 / 2) =
      host + ((ops.filter fun op => op.Covers p).map fun op => op.eps.val - host).sum := by
  unfold islandSum
  congr 1
  induction ops with
  | nil => simp
  | cons op ops ih =>
    obtain ⟨s, h1, h2, h3⟩ := DrawOp.recorded_simple (h op List.mem_cons_self)
    have := ih fun o ho => h o (List.mem_cons_of_mem _ ho)
    rw [List.flatMap_cons, h1, List.singleton_append, List.filter_cons, List.filter_cons]
    by_cases hc : op.Covers p
    · simp only [(h3 p).2 hc, hc, decide_true, if_true, List.map_cons, List.sum_cons, this, h2]
    · simp only [(h3 p).not.2 hc, hc, decide_false, Bool.false_eq_true, if_false, this]

open Classical in
/-- A point which one call at most is about is painted with `host` plus the only difference. -/
theorem paintedAs_filter {ops : List DrawOp} {bg v : ℂ} {p : R2} (h : PaintedAs ops bg p v)
    (h1 : (ops.filter fun op => op.Covers p).length ≤ 1) :
    v = bg + ((ops.filter fun op => op.Covers p).map fun op => op.eps.val - bg).sum := by
  rcases h with ⟨h2, rfl⟩ | ⟨b, op, a, rfl, h3, h4, rfl⟩
  · rw [List.filter_eq_nil_iff.2 (by simpa using h2)]; simp
  · rw [List.filter_append, List.filter_cons] at h1 ⊢
    simp only [h3, decide_true, if_true, List.length_append, List.length_cons] at h1
    have e1 : b.filter (fun op => op.Covers p) = [] := by
      rw [← List.length_eq_zero_iff]; omega
    have e2 : a.filter (fun op => op.Covers p) = [] := by
      rw [← List.length_eq_zero_iff]; omega
    simp [e1, e2, h3]

end

end Khepri
