import Verif.Lemmas.DrawRuns

/-!
# Properties C38, C39, C40: drawings
-/

namespace Khepri

/-! ### C38 -/

/-- **C38.** Whatever is drawn on a new drawing, `canvas()` at a pixel is the permittivity of the last shape
drawn over it, and the background where there is none.  (Parallelograms are for lattices whose first vector
lies along `x`, the second one pointing up.) -/
theorem C38_painter {nx ny : ℕ} {eps : PyNum} {lat : Option (R2 × R2)} {d0 d : Drawing nx ny} {ops : List DrawOp}
    (h0 : Drawing.make nx ny eps lat = .ok d0) (h : ops.foldlM (fun d op => op.call d) d0 = .ok d)
    (hf : ∀ op ∈ ops, op.Fits (lat.getD ((1, 0), (0, 1)))) (i : Fin nx) (j : Fin ny) :
    PaintedAs ops eps.val (pixelAt (lat.getD ((1, 0), (0, 1))) nx ny i j) (d.canvas i j) := by
  obtain ⟨-, rfl⟩ := drawing_make_eq_ok.1 h0
  exact (draw_sequence ops h hf).2.2.2 i j

/-- There is one such value. -/
theorem C38_painter_unique {ops : List DrawOp} {bg v w : ℂ} {p : R2} (hv : PaintedAs ops bg p v)
    (hw : PaintedAs ops bg p w) : v = w := by
  induction ops generalizing bg with
  | nil =>
    rcases hv with ⟨-, rfl⟩ | ⟨b, o, a, h, -⟩ <;> [skip; simp at h]
    rcases hw with ⟨-, rfl⟩ | ⟨b, o, a, h, -⟩ <;> [rfl; simp at h]
  | cons op ops ih =>
    have step : ∀ {u : ℂ}, PaintedAs (op :: ops) bg p u →
        (op.Covers p → PaintedAs ops op.eps.val p u) ∧ (¬ op.Covers p → PaintedAs ops bg p u) := by
      intro u hu
      rcases hu with ⟨h1, h2⟩ | ⟨b, o, a, h1, h2, h3, h4⟩
      · exact ⟨fun hc => absurd hc (h1 _ List.mem_cons_self),
          fun _ => Or.inl ⟨fun o ho => h1 o (List.mem_cons_of_mem _ ho), h2⟩⟩
      · cases b with
        | nil =>
          rw [List.nil_append, List.cons.injEq] at h1
          obtain ⟨rfl, rfl⟩ := h1
          exact ⟨fun _ => Or.inl ⟨h3, h4⟩, fun hc => absurd h2 hc⟩
        | cons x b =>
          rw [List.cons_append, List.cons.injEq] at h1
          have : PaintedAs ops bg p u := Or.inr ⟨b, o, a, h1.2, h2, h3, h4⟩
          exact ⟨fun _ => Or.inr ⟨b, o, a, h1.2, h2, h3, h4⟩, fun _ => this⟩
    by_cases hc : op.Covers p
    · exact ih ((step hv).1 hc) ((step hw).1 hc)
    · exact ih ((step hv).2 hc) ((step hw).2 hc)

/-- The calls are accepted unless a complex permittivity is given to a drawing with a real background, an
ellipse has a null axis or a parallelogram a right tilt. -/
theorem C38_accepts {nx ny : ℕ} {eps : PyNum} {lat : Option (R2 × R2)} {ops : List DrawOp} (hx : nx ≠ 0) (hy : ny ≠ 0)
    (hc : eps.isComplex = true ∨ ∀ op ∈ ops, op.eps.isComplex = false)
    (ha : ∀ xy ab r e, DrawOp.ellipse xy ab r e ∈ ops → ab.1 ≠ 0 ∧ ab.2 ≠ 0)
    (ht : ∀ xy bh t e, DrawOp.parallelogram xy bh t e ∈ ops → Real.cos t ≠ 0) :
    ∃ d0 d : Drawing nx ny, Drawing.make nx ny eps lat = .ok d0 ∧
      ops.foldlM (fun d op => op.call d) d0 = .ok d := by
  have h0 := drawing_make_ok eps lat hx hy
  obtain ⟨d, hd⟩ := draw_sequence_ok (nx := nx) (ny := ny) ops (Nat.pos_of_ne_zero hx)
    (d0 := ⟨lat.getD ((1, 0), (0, 1)), eps, eps.isComplex, fun _ _ => eps.val, []⟩) (by
      intro op hop
      have hcc : op.eps.isComplex = true → eps.isComplex = true := by
        intro h
        rcases hc with hc | hc
        · exact hc
        · rw [hc op hop] at h; exact absurd h (by simp)
      cases op with
      | disc => exact hcc
      | rectangle => exact hcc
      | ellipse => exact ⟨hcc, ha _ _ _ _ hop⟩
      | parallelogram => exact ⟨hcc, ht _ _ _ _ hop⟩)
  exact ⟨_, d, h0, hd⟩

/-- A complex permittivity is refused by a drawing with a real background: `TypeError`. -/
theorem C38_refuses {nx ny : ℕ} {d : Drawing nx ny} {op : DrawOp} (h : d.cplx = false) (he : op.eps.isComplex = true)
    (hop : op.Simple) : op.call d = .error .type := by
  have hp : ∀ (m : Fin nx → Fin ny → Prop) (e : PyNum), e.isComplex = true → d.paint m e = .error .type := by
    intro m e h1
    simp only [Drawing.paint]
    rw [pyCheck_err (by rw [h1, h]; simp)]
    rfl
  cases op with
  | disc xy r e => simp only [DrawOp.call, Drawing.disc]; rw [hp _ e he]; rfl
  | rectangle xy wh e => simp only [DrawOp.call, Drawing.rectangle]; rw [hp _ e he]; rfl
  | ellipse => exact absurd hop (by simp [DrawOp.Simple])
  | parallelogram => exact absurd hop (by simp [DrawOp.Simple])

/-- A disc and a slab over it on a 3 × 3 grid: the middle pixel has the slab's permittivity, the one on its
left the disc's, the corner the background. -/
example : ∃ d0 d : Drawing 3 3, Drawing.make 3 3 (.float 1) none = .ok d0 ∧
    [DrawOp.disc (0, 0) 0.6 (.float 4), .rectangle (0, 0) (0.2, 1) (.float 9)].foldlM (fun d op => op.call d) d0 =
      .ok d ∧ d.canvas 1 1 = 9 ∧ d.canvas 0 1 = 4 ∧ d.canvas 0 0 = 1 := by
  obtain ⟨d0, d, h0, h⟩ := C38_accepts (nx := 3) (ny := 3) (eps := .float 1) (lat := none)
    (ops := [DrawOp.disc (0, 0) 0.6 (.float 4), .rectangle (0, 0) (0.2, 1) (.float 9)]) (by norm_num) (by norm_num)
    (Or.inr (by simp [DrawOp.eps, PyNum.isComplex])) (by simp) (by simp)
  have hp := C38_painter h0 h (by simp [DrawOp.Fits])
  refine ⟨d0, d, h0, h, C38_painter_unique (hp 1 1) (Or.inr ⟨[_], _, [], rfl, ?_, by simp, ?_⟩),
    C38_painter_unique (hp 0 1) (Or.inr ⟨[], _, [_], rfl, ?_, ?_, ?_⟩), C38_painter_unique (hp 0 0) (Or.inl ⟨?_, ?_⟩)⟩
  · norm_num [DrawOp.Covers, pixelAt]
  · norm_num [DrawOp.eps, PyNum.val]
  · norm_num [DrawOp.Covers, pixelAt]
  · simp only [List.mem_singleton, forall_eq]
    norm_num [DrawOp.Covers, pixelAt, abs_of_neg]
  · norm_num [DrawOp.eps, PyNum.val]
  · simp only [List.mem_cons, List.not_mem_nil, or_false, forall_eq_or_imp, forall_eq]
    norm_num [DrawOp.Covers, pixelAt, abs_of_neg]
  · norm_num [PyNum.val]

/-- Any number of calls of drawing methods on an object. -/
def DrawObj.calls {nx ny : ℕ} : List (Drawing nx ny → Py (Drawing nx ny)) → DrawMem nx ny → DrawObj →
    Py (DrawMem nx ny × DrawObj)
  | [], m, o => .ok (m, o)
  | f :: fs, m, o => do
    let r ← o.call m f
    calls fs r.1 r.2

/-- **C38.** `canvas()` hands out a copy: it has the values of the moment, later drawing does not change it, and
writing into it does not change the drawing. -/
theorem C38_copy {nx ny : ℕ} {m m' : DrawMem nx ny} {o : DrawObj} {ref : ℕ} {d : Drawing nx ny}
    (hd : o.load m = .ok d) (h : o.canvas m = .ok (m', ref)) :
    m'.arrays[ref]? = some d.canvas ∧ o.load m' = .ok d ∧
      (∀ fs m'' o'', DrawObj.calls fs m' o = .ok (m'', o'') → m''.arrays[ref]? = some d.canvas) ∧
      ∀ a, o.load { m' with arrays := m'.arrays.set ref a } = .ok d := by
  simp only [DrawObj.canvas, bind_eq_ok] at h
  obtain ⟨a, ha, h⟩ := h
  simp only [pure, Except.pure, Except.ok.injEq, Prod.mk.injEq] at h
  obtain ⟨rfl, rfl⟩ := h
  rw [pyGet_eq_ok] at ha
  have hlt : o.canvasRef < m.arrays.length := (List.getElem?_eq_some_iff.1 ha).1
  simp only [DrawObj.load, bind_eq_ok, pyGet_eq_ok] at hd
  obtain ⟨a', ha', l, hl, hd⟩ := hd
  simp only [pure, Except.pure, Except.ok.injEq] at hd
  rw [ha, Option.some.injEq] at ha'
  subst ha' hd
  have hcopy : (m.arrays ++ [a])[m.arrays.length]? = some a := by simp
  refine ⟨hcopy, ?_, ?_, ?_⟩
  · simp only [DrawObj.load]
    rw [pyGet_of (a := a) (by rw [List.getElem?_append_left hlt]; exact ha), ok_bind, pyGet_of hl]
    rfl
  · intro fs
    suffices key : ∀ (m1 : DrawMem nx ny) (o1 : DrawObj), o1.canvasRef = o.canvasRef →
        m1.arrays[m.arrays.length]? = some a → ∀ m'' o'', DrawObj.calls fs m1 o1 = .ok (m'', o'') →
        m''.arrays[m.arrays.length]? = some a from key _ _ rfl hcopy
    induction fs with
    | nil =>
      intro m1 o1 _ h2 m'' o'' h3
      simp only [DrawObj.calls, Except.ok.injEq, Prod.mk.injEq] at h3
      rw [← h3.1]; exact h2
    | cons f fs ih =>
      intro m1 o1 h1 h2 m'' o'' h3
      simp only [DrawObj.calls, bind_eq_ok] at h3
      obtain ⟨r, hr, h3⟩ := h3
      simp only [DrawObj.call, bind_eq_ok] at hr
      obtain ⟨d1, -, d2, -, hr⟩ := hr
      simp only [pure, Except.pure, Except.ok.injEq] at hr
      subst hr
      refine ih _ _ ?_ ?_ m'' o'' h3
      · exact h1
      simp only [h1]
      rw [List.getElem?_set_ne (by omega)]
      exact h2
  · intro b
    simp only [DrawObj.load]
    rw [pyGet_of (a := a) (by
      rw [List.getElem?_set_ne (by omega), List.getElem?_append_left hlt]; exact ha), ok_bind, pyGet_of hl]
    rfl

/-- Whereas the list that `islands()` hands out is the drawing's own: it grows with later drawing. -/
theorem C38_islands_live {nx ny : ℕ} {m m' : DrawMem nx ny} {o o' : DrawObj} {d d' : Drawing nx ny}
    {f : Drawing nx ny → Py (Drawing nx ny)} (hd : o.load m = .ok d) (hf : f d = .ok d')
    (h : o.call m f = .ok (m', o')) : m'.lists[o.islandsRef]? = some d'.islands ∧
      ∃ d'', o'.load m' = .ok d'' ∧ d''.canvas = d'.canvas ∧ d''.islands = d'.islands := by
  simp only [DrawObj.call, hd, hf, ok_bind, pure, Except.pure, Except.ok.injEq, Prod.mk.injEq] at h
  obtain ⟨rfl, rfl⟩ := h
  simp only [DrawObj.load, bind_eq_ok, pyGet_eq_ok] at hd
  obtain ⟨a, ha, l, hl, hd⟩ := hd
  have h1 := (List.getElem?_eq_some_iff.1 ha).1
  have h2 := (List.getElem?_eq_some_iff.1 hl).1
  refine ⟨by simp [DrawObj.islandsRef, h2], ?_⟩
  simp only [DrawObj.load]
  rw [pyGet_of (a := d'.canvas) (by simp [h1]), ok_bind, pyGet_of (a := d'.islands) (by simp [h2])]
  exact ⟨_, rfl, rfl, rfl⟩

/-- An object, a copy of its canvas, a disc drawn afterwards: the copy still holds the background. -/
example : ∃ (m m' m'' : DrawMem 2 2) (o o'' : DrawObj) (ref : ℕ),
    o.canvas m = .ok (m', ref) ∧ DrawObj.calls [fun d => d.disc (0, 0) 2 (.float 5)] m' o = .ok (m'', o'') ∧
    m''.arrays[ref]? = some (fun _ _ => 1) ∧ ∃ d, o''.load m'' = .ok d ∧ d.canvas 0 0 = 5 := by
  let d0 : Drawing 2 2 := ⟨((1, 0), (0, 1)), .float 1, false, fun _ _ => 1, []⟩
  let m := (DrawObj.store ⟨[], []⟩ d0).1
  let o := (DrawObj.store ⟨[], []⟩ d0).2
  have hl : o.load m = .ok d0 := rfl
  have hc : o.canvas m = .ok (⟨[d0.canvas, d0.canvas], [[]]⟩, 1) := rfl
  obtain ⟨d1, h1⟩ := DrawOp.call_ok (op := .disc (0, 0) 2 (.float 5)) (d := d0) (by norm_num) (by
    simp [DrawOp.Valid, PyNum.isComplex])
  have hp := (DrawOp.call_draws h1).inside trivial 0 0 (by norm_num [DrawOp.Covers, pixelAt])
  obtain ⟨c1, c2, c3, -⟩ := C38_copy hl hc
  have hcall : DrawObj.calls [fun d => d.disc (0, 0) 2 (.float 5)] ⟨[d0.canvas, d0.canvas], [[]]⟩ o =
      .ok (⟨[d1.canvas, d0.canvas], [d1.islands]⟩, { o with background := d1.background }) := by
    have h1' : d0.disc (0, 0) 2 (.float 5) = .ok d1 := h1
    simp only [DrawObj.calls, DrawObj.call, c2, ok_bind, h1']
    rfl
  refine ⟨m, _, _, o, _, 1, hc, hcall, c3 _ _ _ hcall, _, rfl, ?_⟩
  show d1.canvas 0 0 = 5
  rw [hp]
  norm_num [DrawOp.eps, PyNum.val]

/-! ### C39 -/

/-- **C39.** On a new drawing of the same length (with the default lattice), `from_numpy(X)` of a
one-dimensional array of at least two materials, one being the background, leaves `canvas()` equal to `X`
(repeated along the other axis), and the recorded islands are exactly the maximal runs of the other materials,
from left to right, one rectangle for each. -/
theorem C39_grating_partial {xs : List ℝ} {ny : ℕ} {b : ℝ} {bg : PyNum} {shape : List ℕ} {d0 : Drawing xs.length ny}
    (h0 : Drawing.make xs.length ny bg none = .ok d0) (hv : bg.val = b) (hb : b ∈ xs) (hx : ∃ x ∈ xs, x ≠ b)
    (hs : shape = [xs.length] ∨ shape = [xs.length, 1] ∨ shape = [1, xs.length]) :
    ∃ d, d0.fromNumpy shape xs = .ok d ∧ (∀ i j, d.canvas i j = (xs[i] : ℝ)) ∧
      ∃ ivs : List (ℕ × ℕ × ℝ), (∀ s e v, (s, e, v) ∈ ivs ↔ MaximalRun xs s e v ∧ v ≠ b) ∧
        ivs.Pairwise (fun p q => p.2.1 ≤ q.1) ∧
        d.islands = ivs.map fun iv => ⟨.rectangle (iv.1 / xs.length) 0 (iv.2.1 / xs.length) 1, (iv.2.2 : ℂ)⟩ := by
  obtain ⟨hn, rfl⟩ := drawing_make_eq_ok.1 h0
  obtain ⟨x, hx, hxb⟩ := hx
  have hL : 2 ≤ xs.length := by
    rcases Nat.lt_or_ge xs.length 2 with h | h
    · have h1 : xs.length = 1 := by have := hn.1; omega
      obtain ⟨y, rfl⟩ := List.length_eq_one_iff.1 h1
      rw [List.mem_singleton] at hb hx
      exact absurd (hx.trans hb.symm) hxb
    · exact h
  have hm : (Drawing.npUnique xs).length ≠ 1 := by
    intro h
    obtain ⟨y, hy⟩ := List.length_eq_one_iff.1 h
    have h1 := Drawing.npUnique_mem.2 hb
    have h2 := Drawing.npUnique_mem.2 hx
    rw [hy, List.mem_singleton] at h1 h2
    exact hxb (h2.trans h1.symm)
  obtain ⟨ivs, hi, hmem, hsort⟩ := Drawing.materialIntervals_ok hb hv
  have hne : ivs ≠ [] := by
    obtain ⟨i, hil, hix⟩ := List.getElem_of_mem hx
    obtain ⟨s, e, hr, -⟩ := Drawing.maximalRun_exists (List.getElem?_eq_some_iff.2 ⟨hil, hix⟩)
    exact List.ne_nil_of_mem ((hmem (s, e, x)).2 ⟨hr, hxb⟩)
  obtain ⟨d, hd⟩ := draw_sequence_ok (nx := xs.length) (ny := ny) (ivs.map (Drawing.runOp xs.length)) (by omega)
    (d0 := ⟨(none : Option (R2 × R2)).getD ((1, 0), (0, 1)), bg, bg.isComplex, fun _ _ => bg.val, []⟩) (by
      intro op hop
      obtain ⟨iv, -, rfl⟩ := List.mem_map.1 hop
      simp [Drawing.runOp, DrawOp.Valid, PyNum.isComplex])
  refine ⟨d, ?_, fun i j => ?_, ivs, fun s e v => hmem (s, e, v), hsort, ?_⟩
  · have hsh : ¬(1 < shape.length ∧ 1 < shape.getD 0 0 ∧ 1 < shape.getD 1 0) := by
      rcases hs with rfl | rfl | rfl <;> simp
    simp only [Drawing.fromNumpy, pyCheck_ok hsh, ok_bind, if_neg hm, hi, pyCheck_ok hne,
      Drawing.foldlM_intervals, hd]
  · have hp := (draw_sequence _ hd (by
      intro op hop
      obtain ⟨iv, -, rfl⟩ := List.mem_map.1 hop
      trivial)).2.2.2 i j
    have hcov : ∀ iv ∈ ivs, (Drawing.runOp xs.length iv).Covers (pixelAt ((1, 0), (0, 1)) xs.length ny i j) ↔
        iv.1 ≤ i ∧ (i : ℕ) < iv.2.1 := by
      rintro ⟨s, e, v⟩ hiv
      have hr := ((hmem _).1 hiv).1
      exact Drawing.runOp_covers hL hr.nonempty hr.inside i.2 j.2
    have hxi : xs[(i : ℕ)]? = some xs[i] := List.getElem?_eq_getElem i.2
    rcases hp with ⟨h1, h2⟩ | ⟨b1, op, a1, h1, h2, h3, h4⟩
    · rw [h2]
      simp only [hv]
      by_contra hc
      obtain ⟨s, e, hr, h5, h6⟩ := Drawing.maximalRun_exists hxi
      have hiv : (s, e, xs[i]) ∈ ivs := (hmem _).2 ⟨hr, fun h => hc (by rw [show xs[i] = b from h])⟩
      exact h1 _ (List.mem_map_of_mem hiv) ((hcov _ hiv).2 ⟨h5, h6⟩)
    · have hop : op ∈ ivs.map (Drawing.runOp xs.length) := by rw [h1]; simp
      obtain ⟨⟨s, e, v⟩, hiv, rfl⟩ := List.mem_map.1 hop
      obtain ⟨h5, h6⟩ := (hcov _ hiv).1 h2
      have hr := ((hmem _).1 hiv).1.const i h5 h6
      rw [hxi, Option.some.injEq] at hr
      rw [h4, hr]
      rfl
  · rw [draw_islands _ hd, List.nil_append, List.flatMap_map]
    have hL0 : (xs.length : ℝ) ≠ 0 := by exact_mod_cast (by omega : xs.length ≠ 0)
    rw [List.map_eq_flatMap]
    congr 1
    funext iv
    simp only [Drawing.runOp, DrawOp.recorded, PyNum.val]
    congr 3
    · field_simp; norm_num; ring
    · norm_num
    · field_simp; norm_num; ring
    · norm_num

/-- Two bars of different widths. -/
example : ∃ (d0 d : Drawing 5 1), Drawing.make 5 1 (.float 1) none = .ok d0 ∧
    d0.fromNumpy [5] [1, 4, 4, 1, 9] = .ok d ∧ d.canvas 2 0 = 4 ∧ d.canvas 3 0 = 1 ∧
    (⟨.rectangle ((1 : ℕ) / (5 : ℕ)) 0 ((3 : ℕ) / (5 : ℕ)) 1, ((4 : ℝ) : ℂ)⟩ : Island) ∈ d.islands := by
  have h0 := drawing_make_ok (nx := 5) (ny := 1) (.float 1) none (by norm_num) (by norm_num)
  obtain ⟨d, h1, h2, ivs, h3, -, h4⟩ := C39_grating_partial (xs := [1, 4, 4, 1, 9]) (ny := 1) (b := 1) (bg := .float 1)
    (shape := [5]) h0 rfl (by simp) ⟨4, by simp, by norm_num⟩ (Or.inl rfl)
  refine ⟨_, d, h0, h1, by rw [h2]; simp, by rw [h2]; simp, ?_⟩
  rw [h4]
  refine List.mem_map.2 ⟨(1, 3, 4), (h3 _ _ _).2 ⟨⟨by norm_num, by norm_num, ?_, ?_, ?_⟩, by norm_num⟩, rfl⟩
  · intro i h5 h6
    interval_cases i <;> simp
  · intro i hi
    have : i = 0 := by omega
    subst this; norm_num
  · norm_num

/-- A two-dimensional array is refused. -/
theorem C39_refuses {nx ny a b : ℕ} (d : Drawing nx ny) {xs : List ℝ} (ha : 1 < a) (hb : 1 < b) :
    d.fromNumpy [a, b] xs = .error .notImplemented := by
  simp only [Drawing.fromNumpy]
  rw [pyCheck_err (by simp [ha, hb])]
  rfl

/-- An array of two materials or more without the background is refused: `ValueError`. -/
theorem C39_missing {nx ny : ℕ} (d : Drawing nx ny) {xs : List ℝ} {L : ℕ} {x y : ℝ} (hx : x ∈ xs) (hy : y ∈ xs)
    (hxy : x ≠ y) (hb : ∀ v ∈ xs, (v : ℂ) ≠ d.background.val) : d.fromNumpy [L] xs = .error .value := by
  have hm : (Drawing.npUnique xs).length ≠ 1 := by
    intro h
    obtain ⟨z, hz⟩ := List.length_eq_one_iff.1 h
    have h1 := Drawing.npUnique_mem.2 hx
    have h2 := Drawing.npUnique_mem.2 hy
    rw [hz, List.mem_singleton] at h1 h2
    exact hxy (h1.trans h2.symm)
  have hpos : 0 < xs.length := List.length_pos_of_mem hx
  obtain ⟨k, hk, -⟩ := Drawing.pyIndexOf_ok (l := Drawing.npUnique xs) (p := (· = xs[0])) (v := xs[0])
    (Drawing.npUnique_mem.2 (List.getElem_mem hpos)) (fun _ => Iff.rfl)
  have h0 : pyGet xs 0 = .ok xs[0] := by rw [pyGet_eq_ok]; exact List.getElem?_eq_getElem hpos
  simp only [Drawing.fromNumpy]
  rw [pyCheck_ok (by simp)]
  simp only [ok_bind, if_neg hm, Drawing.materialIntervals, h0, hk]
  rw [Drawing.pyIndexOf_absent (fun v hv => hb v (Drawing.npUnique_mem.1 hv))]
  rfl

/-- With one material only, the background changes but the canvas keeps the old one. -/
theorem C39_uniform_counterexample : ∃ d0 d : Drawing 2 1, Drawing.make 2 1 (.float 1) none = .ok d0 ∧
    d0.fromNumpy [2] [4, 4] = .ok d ∧ d.background.val = 4 ∧ d.canvas 0 0 = 1 ∧ d.canvas 1 0 = 1 := by
  refine ⟨_, ⟨((1, 0), (0, 1)), .float 4, false, fun _ _ => ((1 : ℝ) : ℂ), []⟩,
    drawing_make_ok (.float 1) none (by norm_num) (by norm_num), ?_, ?_, ?_, ?_⟩
  · simp only [Drawing.fromNumpy]
    rw [pyCheck_ok (by simp)]
    simp [Drawing.npUnique, PyNum.val, PyNum.isComplex, pure, Except.pure]
    rfl
  · norm_num [PyNum.val]
  · rfl
  · rfl

/-- On a lattice other than the unit one, the bars are drawn at absolute positions: with a period of 2, the bar
in the second half of `[1, 1, 4, 4]` misses the last pixel. -/
theorem C39_lattice_counterexample : ∃ d0 d : Drawing 4 1, Drawing.make 4 1 (.float 1) (some ((2, 0), (0, 1))) = .ok d0 ∧
    d0.fromNumpy [4] [1, 1, 4, 4] = .ok d ∧ d.canvas 3 0 = 1 := by
  have h0 := drawing_make_ok (nx := 4) (ny := 1) (.float 1) (some ((2, 0), (0, 1))) (by norm_num) (by norm_num)
  obtain ⟨ivs, hi, hmem, hsort⟩ := Drawing.materialIntervals_ok (xs := [1, 1, 4, 4]) (b := 1) (bg := .float 1)
    (by simp) rfl
  have hrun : ∀ iv ∈ ivs, iv = (2, 4, 4) := by
    rintro ⟨s, e, v⟩ h
    obtain ⟨⟨h1, h2, h3, h4, h5⟩, h6⟩ := (hmem _).1 h
    simp only [List.length_cons, List.length_nil] at h1 h2 h3 h4 h5 h6
    have a0 := h3 s le_rfl h1
    have a1 := h3 (e - 1) (by omega) (by omega)
    have hs : s = 0 ∨ s = 1 ∨ s = 2 ∨ s = 3 := by omega
    rcases hs with rfl | rfl | rfl | rfl
    · simp only [List.getElem?_cons_zero, Option.some.injEq] at a0
      exact absurd a0.symm h6
    · simp at a0
      exact absurd a0.symm h6
    · simp at a0
      have : e = 3 ∨ e = 4 := by omega
      rcases this with rfl | rfl
      · exact absurd a0 (by simpa using h5)
      · rw [a0]
    · simp at a0
      exact absurd a0 (by simpa using h4 2 rfl)
  have hne : ivs ≠ [] := by
    obtain ⟨s, e, hr, -⟩ := Drawing.maximalRun_exists (xs := [1, 1, 4, 4]) (i := 2) (v := 4) (by simp)
    exact List.ne_nil_of_mem ((hmem (s, e, 4)).2 ⟨hr, by norm_num⟩)
  obtain ⟨d, hd⟩ := draw_sequence_ok (nx := 4) (ny := 1) (ivs.map (Drawing.runOp 4)) (by omega)
    (d0 := ⟨(some ((2, 0), (0, 1)) : Option (R2 × R2)).getD ((1, 0), (0, 1)), .float 1, false, fun _ _ => 1, []⟩) (by
      intro op hop
      obtain ⟨iv, -, rfl⟩ := List.mem_map.1 hop
      simp [Drawing.runOp, DrawOp.Valid, PyNum.isComplex])
  refine ⟨_, d, h0, ?_, ?_⟩
  · have hm : (Drawing.npUnique [1, 1, 4, 4]).length ≠ 1 := by
      intro h
      obtain ⟨z, hz⟩ := List.length_eq_one_iff.1 h
      have h1 := Drawing.npUnique_mem.2 (show (1 : ℝ) ∈ [1, 1, 4, 4] by simp)
      have h2 := Drawing.npUnique_mem.2 (show (4 : ℝ) ∈ [1, 1, 4, 4] by simp)
      rw [hz, List.mem_singleton] at h1 h2
      rw [← h1] at h2; norm_num at h2
    have hd' : ivs.foldlM (Drawing.intervalRectangle 4) (⟨((2, 0), (0, 1)), .float 1, false, fun _ _ => 1, []⟩ :
        Drawing 4 1) = .ok d := by rw [Drawing.foldlM_intervals]; exact hd
    simp only [Drawing.fromNumpy]
    rw [pyCheck_ok (by simp)]
    simp only [ok_bind, if_neg hm, hi, pyCheck_ok hne]
    simpa [PyNum.val, PyNum.isComplex] using hd'
  · have hp := (draw_sequence _ hd (by
      intro op hop
      obtain ⟨iv, -, rfl⟩ := List.mem_map.1 hop
      trivial)).2.2.2 3 0
    refine C38_painter_unique hp (Or.inl ⟨?_, rfl⟩)
    intro op hop
    obtain ⟨iv, hiv, rfl⟩ := List.mem_map.1 hop
    rw [hrun iv hiv]
    norm_num [Drawing.runOp, DrawOp.Covers, pixelAt, abs_of_pos]

/-! ### C40 -/

open Classical in
/-- **C40 (partial).** On a drawing made of discs and rectangles, at a point that at most one of them covers,
the islands give the painted value; in general they add up the differences of all the shapes over the point.
The full property would be the first equality at every point, which is false where shapes overlap. -/
theorem C40_islands_partial {nx ny : ℕ} {eps : PyNum} {lat : Option (R2 × R2)} {d0 d : Drawing nx ny}
    {ops : List DrawOp} (h0 : Drawing.make nx ny eps lat = .ok d0)
    (h : ops.foldlM (fun d op => op.call d) d0 = .ok d) (hs : ∀ op ∈ ops, op.Simple) :
    (∀ (p : R2) (v : ℂ), (ops.filter fun op => op.Covers p).length ≤ 1 → PaintedAs ops eps.val p v →
      islandSum d.islands d.background.val (p.1 + 1 / 2, p.2 + 1 / 2) = v) ∧
    (∀ (i : Fin nx) (j : Fin ny) (p : R2), p = pixelAt (lat.getD ((1, 0), (0, 1))) nx ny i j →
      (ops.filter fun op => op.Covers p).length ≤ 1 →
      islandSum d.islands d.background.val (p.1 + 1 / 2, p.2 + 1 / 2) = d.canvas i j) ∧
    ∀ p : R2, islandSum d.islands d.background.val (p.1 + 1 / 2, p.2 + 1 / 2) =
      eps.val + ((ops.filter fun op => op.Covers p).map fun op => op.eps.val - eps.val).sum := by
  have hf : ∀ op ∈ ops, op.Fits (lat.getD ((1, 0), (0, 1))) := by
    intro op hop
    have := hs op hop
    cases op <;> simp_all [DrawOp.Simple, DrawOp.Fits]
  have hpaint := C38_painter h0 h hf
  obtain ⟨-, rfl⟩ := drawing_make_eq_ok.1 h0
  have hb : d.background = eps := (draw_sequence ops h hf).2.1
  have hi := draw_islands ops h
  rw [List.nil_append] at hi
  have key : ∀ p : R2, islandSum d.islands d.background.val (p.1 + 1 / 2, p.2 + 1 / 2) =
      eps.val + ((ops.filter fun op => op.Covers p).map fun op => op.eps.val - eps.val).sum := by
    intro p
    rw [hi, hb, islandSum_simple hs]
  refine ⟨fun p v h1 h2 => ?_, fun i j p hp h1 => ?_, key⟩
  · rw [key, ← paintedAs_filter h2 h1]
  · rw [key, ← paintedAs_filter (hp ▸ hpaint i j) h1]

/-- A disc and a bar beside it. -/
example : ∃ d0 d : Drawing 3 3, Drawing.make 3 3 (.float 1) none = .ok d0 ∧
    [DrawOp.disc (-0.5, 0) 0.2 (.float 4), .rectangle (0.5, 0) (0.2, 1) (.float 9)].foldlM (fun d op => op.call d) d0 =
      .ok d ∧ islandSum d.islands d.background.val (0, 1 / 2) = 4 := by
  obtain ⟨d0, d, h0, h⟩ := C38_accepts (nx := 3) (ny := 3) (eps := .float 1) (lat := none)
    (ops := [DrawOp.disc (-0.5, 0) 0.2 (.float 4), .rectangle (0.5, 0) (0.2, 1) (.float 9)]) (by norm_num) (by norm_num)
    (Or.inr (by simp [DrawOp.eps, PyNum.isComplex])) (by simp) (by simp)
  refine ⟨d0, d, h0, h, ?_⟩
  have hc1 : (DrawOp.disc (-0.5, 0) 0.2 (.float 4)).Covers (-1 / 2, 0) := by norm_num [DrawOp.Covers]
  have hc2 : ¬ (DrawOp.rectangle (0.5, 0) (0.2, 1) (.float 9)).Covers (-1 / 2, 0) := by
    norm_num [DrawOp.Covers]
  have := (C40_islands_partial h0 h (by simp [DrawOp.Simple])).1 (-1 / 2, 0) 4 (by
      rw [List.filter_cons, List.filter_cons]
      simp [hc1, hc2]) (Or.inr ⟨[], _, _, rfl, hc1, by simpa using hc2, by norm_num [DrawOp.eps, PyNum.val]⟩)
  norm_num at this ⊢
  exact this

/-- Overlapping shapes: a disc of permittivity 4 and a bar of permittivity 9 over it on a background of 1 paint
9 where both are, and their islands add up to 12. -/
theorem C40_overlap_counterexample : ∃ d0 d : Drawing 3 3, Drawing.make 3 3 (.float 1) none = .ok d0 ∧
    [DrawOp.disc (0, 0) 0.6 (.float 4), .rectangle (0, 0) (0.2, 1) (.float 9)].foldlM (fun d op => op.call d) d0 =
      .ok d ∧ d.canvas 1 1 = 9 ∧ islandSum d.islands d.background.val (1 / 2, 1 / 2) = 12 := by
  obtain ⟨d0, d, h0, h⟩ := C38_accepts (nx := 3) (ny := 3) (eps := .float 1) (lat := none)
    (ops := [DrawOp.disc (0, 0) 0.6 (.float 4), .rectangle (0, 0) (0.2, 1) (.float 9)]) (by norm_num) (by norm_num)
    (Or.inr (by simp [DrawOp.eps, PyNum.isComplex])) (by simp) (by simp)
  have hc1 : (DrawOp.disc (0, 0) 0.6 (.float 4)).Covers (0, 0) := by norm_num [DrawOp.Covers]
  have hc2 : (DrawOp.rectangle (0, 0) (0.2, 1) (.float 9)).Covers (0, 0) := by norm_num [DrawOp.Covers]
  refine ⟨d0, d, h0, h, C38_painter_unique (C38_painter h0 h (by simp [DrawOp.Fits]) 1 1)
    (Or.inr ⟨[_], _, [], rfl, ?_, by simp, ?_⟩), ?_⟩
  · norm_num [DrawOp.Covers, pixelAt]
  · norm_num [DrawOp.eps, PyNum.val]
  · have := (C40_islands_partial h0 h (by simp [DrawOp.Simple])).2.2 (0, 0)
    rw [List.filter_cons, List.filter_cons] at this
    simp only [hc1, hc2, decide_true, if_true, List.filter_nil, List.map_cons, List.map_nil, List.sum_cons,
      List.sum_nil, DrawOp.eps, PyNum.val] at this
    norm_num at this ⊢
    exact this

/-- A parallelogram is painted but no island records it, whatever it is. -/
theorem C40_parallelogram_counterexample {nx ny : ℕ} {d d' : Drawing nx ny} {xy bh : R2} {t : ℝ} {e : PyNum}
    (h : d.parallelogram xy bh t e = .ok d') : d'.islands = d.islands := by
  have := DrawOp.call_islands (op := .parallelogram xy bh t e) h
  simpa [DrawOp.recorded] using this

/-- A drawn ellipse cannot be used by an analytical layer: its transform does not exist (`AttributeError`). -/
theorem C40_ellipse_counterexample {nx ny : ℕ} {d d' : Drawing nx ny} {xy ab : R2} {r : ℝ} {e : PyNum}
    (h : d.ellipse xy ab r e = .ok d') : ∃ s ∈ d'.islands, ∀ jv1 g sigma,
      transformShape jv1 s.shape g sigma = .error .attribute := by
  have := DrawOp.call_islands (op := .ellipse xy ab r e) h
  rw [this]
  exact ⟨_, List.mem_append_right _ (List.mem_singleton.2 rfl), fun _ _ _ => rfl⟩

end Khepri
