import Verif.Lemmas.Factory
import Verif.Lemmas.SetDevice
import Verif.Props.Builder

/-!
# C77: the woodpile
-/

namespace Khepri

open Crystal

variable {tag : ℕ} {w shift height : ℝ} {eps : PyNum} {pw resolution : ℕ × ℕ} {cl : Crystal (pw.1 * pw.2)}

/-- **C77.** `make_woodpile` accepts any rods and any positions of real permittivity, provided the drawing has pixels
and the numbers of orders are odd. -/
theorem C77_accepts (tag : ℕ) (w shift height : ℝ) (eps : PyNum) (pw resolution : ℕ × ℕ) :
    (∃ cl, makeWoodpile tag w eps shift height pw resolution = .ok cl) ↔
      eps.isComplex = false ∧ resolution.1 ≠ 0 ∧ resolution.2 ≠ 0 ∧ Odd pw.1 ∧ Odd pw.2 := by
  constructor
  · rintro ⟨cl, h⟩
    obtain ⟨d1, d2, d3, d4, d5, c0, c, h1, h2, -, -, -, h3, -⟩ := makeWoodpile_eq_ok.1 h
    obtain ⟨⟨hx, hy⟩, rfl⟩ := drawing_make_eq_ok.1 h1
    obtain ⟨hc, -⟩ := rod_eq_ok rfl h2
    obtain ⟨o1, o2, -⟩ := (C71_accepts_name tag pw "square" 1 false 1 1).1 ⟨_, h3⟩
    refine ⟨?_, hx, hy, o1, o2⟩
    cases he : eps.isComplex with
    | false => rfl
    | true => simpa [PyNum.isComplex] using hc he
  · rintro ⟨he, hx, hy, o1, o2⟩
    have hm := drawing_make_ok (.float 1) none hx hy
    obtain ⟨d2, h2, -⟩ := rod_ok (d := (⟨((1, 0), (0, 1)), .float 1, false, fun _ _ => PyNum.val (.float 1), []⟩ :
      Drawing resolution.1 resolution.2)) (c := 0) (w := w) (eps := eps) (by simp [he])
    obtain ⟨d4, h4, -⟩ := rod_ok (d := (⟨((1, 0), (0, 1)), .float 1, false, fun _ _ => PyNum.val (.float 1), []⟩ :
      Drawing resolution.1 resolution.2)) (c := shift) (w := w) (eps := eps) (by simp [he])
    obtain ⟨d5, h5, -⟩ := rod_ok (d := d4) (c := -shift) (w := w) (eps := eps) (by simp [he])
    obtain ⟨c0, h0⟩ := (C71_accepts_name tag pw "square" 1 false 1 1).2 ⟨o1, o2, one_ne_zero, .inl rfl⟩
    have ha : ∃ c, c0.addAll [.pixmap "A" d2.pixels height, .pixmap "B" d2.pixels.transpose height,
        .pixmap "C" d5.pixels height, .pixmap "D" d5.pixels.transpose height] = .ok c := by
      simp only [addAll_four, Crystal.add, ok_bind]
      exact ⟨_, rfl⟩
    obtain ⟨c, ha⟩ := ha
    obtain ⟨Ls, c1, -, -, hd, -⟩ := C71_device (stack := ["A", "B", "C", "D"])
      (m := .inr [false, false, false, false]) h0 ha (by simp [Add.name]) (by simp [Add.name]) (by simp)
    exact ⟨c1, makeWoodpile_eq_ok.2 ⟨_, d2, _, d4, d5, c0, c, hm, h2, hm, h4, h5, h0, ha, hd⟩⟩

/-- **C77.** Lossy rods, whose permittivity is complex, are refused: the drawing is made on a background of real
permittivity. -/
theorem C77_lossy_counterexample (tag : ℕ) (w shift height : ℝ) (z : ℂ) (pw resolution : ℕ × ℕ)
    (h : resolution.1 ≠ 0 ∧ resolution.2 ≠ 0) :
    makeWoodpile tag w (.complex z) shift height pw resolution = .error .type := by
  rw [makeWoodpile, drawing_make_ok _ _ h.1 h.2, ok_bind]
  simp [Drawing.rectangle, Drawing.paint, pyCheck, PyNum.isComplex, error_bind]

/-- **C77.** What is built: on the square lattice of pitch 1, in vacuum, four layers of the height of the rods, in the
order A, B, C, D from the side of incidence.  A has one rod per period, along x, centred in the cell; C has rods
centred at plus and minus the shift; B and D are A and C with x and y exchanged. -/
theorem C77_layers (h : makeWoodpile tag w eps shift height pw resolution = .ok cl) :
    ∃ (c : Crystal (pw.1 * pw.2)) (la lb lc ld : Layer (pw.1 * pw.2)) (a b : Arr2),
      FreshDevice c ["A", "B", "C", "D"] (.inr [false, false, false, false]) [la, lb, lc, ld] 1 1 ∧
      c.setDevice ["A", "B", "C", "D"] (.inr [false, false, false, false]) = .ok cl ∧
      Expansion.make tag pw ((1, 0), (0, 1)) = .ok c.expansion ∧
      la.form = .fft a ∧ lb.form = .fft ⟨a.ny, a.nx, fun i j => a.val j i⟩ ∧
      lc.form = .fft b ∧ ld.form = .fft ⟨b.ny, b.nx, fun i j => b.val j i⟩ ∧
      (la.depth = height ∧ lb.depth = height ∧ lc.depth = height ∧ ld.depth = height) ∧
      ((a.nx, a.ny) = resolution ∧ (b.nx, b.ny) = resolution) ∧
      RodsAlongX (fun y => |y| ≤ w / 2) eps.val a ∧
      RodsAlongX (fun y => |y - shift| ≤ w / 2 ∨ |y + shift| ≤ w / 2) eps.val b := by
  obtain ⟨d1, d2, d3, d4, d5, c0, c, h1, h2, h3, h4, h5, h6, h7, h8⟩ := makeWoodpile_eq_ok.1 h
  obtain ⟨-, rfl⟩ := drawing_make_eq_ok.1 h1
  obtain ⟨-, rfl⟩ := drawing_make_eq_ok.1 h3
  obtain ⟨-, -, -, p2⟩ := rod_eq_ok rfl h2
  obtain ⟨-, l4, -, p4⟩ := rod_eq_ok rfl h4
  obtain ⟨-, -, -, p5⟩ := rod_eq_ok (l4.trans rfl) h5
  obtain ⟨Ls, c1, hf, -, hd, hL⟩ := C71_device (stack := ["A", "B", "C", "D"])
    (m := .inr [false, false, false, false]) h6 h7 (by simp [Add.name]) (by simp [Add.name]) (by simp)
  rw [h8, Except.ok.injEq] at hd
  subst hd
  simp only [List.forall₂_cons_left_iff, List.forall₂_nil_left_iff] at hL
  obtain ⟨la, _, ⟨_, ea, ka, da⟩, ⟨lb, _, ⟨_, eb, kb, db⟩, ⟨lc, _, ⟨_, ec, kc, dc⟩, ⟨ld, _, ⟨_, ed, kd, dd⟩, rfl, rfl⟩, rfl⟩, rfl⟩, rfl⟩ := hL
  simp only [lastAdd, List.reverse_cons, List.reverse_nil, List.nil_append, List.cons_append, List.find?_cons,
    Add.name, String.reduceEq, decide_true, decide_false, Option.some.injEq] at ea eb ec ed
  subst ea eb ec ed
  obtain ⟨lat, e, q1, q2, q3⟩ := create_eq_ok.1 h6
  obtain ⟨q4, -⟩ := addAll_view h7
  have hexp : c.expansion = e := by rw [q4, q3]
  simp only [latticeVectors, if_true, Except.ok.injEq, mul_one, mul_zero] at q1
  subst q1
  refine ⟨c, la, lb, lc, ld, d2.pixels, d5.pixels, hf, h8, by rw [hexp]; exact q2, ka, kb, kc, kd,
    ⟨da, db, dc, dd⟩, ⟨rfl, rfl⟩, fun i j => ?_, fun i j => ?_⟩
  · obtain ⟨e1, e2⟩ := p2 i j
    rw [sub_zero] at e1 e2
    exact ⟨e1, fun k => (e2 k).trans (by simp [PyNum.val])⟩
  · obtain ⟨e1, e2⟩ := p4 i j
    obtain ⟨e3, e4⟩ := p5 i j
    rw [sub_neg_eq_add] at e3 e4
    constructor
    · intro k
      by_cases hk : |across resolution.2 j + shift| ≤ w / 2
      · exact e3 hk
      · exact (e4 hk).trans (e1 (k.resolve_right hk))
    · intro k
      exact ((e4 fun q => k (.inr q)).trans (e2 fun q => k (.inl q))).trans (by simp [PyNum.val])

/-- **C77.** The stack is four rods high. -/
theorem C77_depth (h : makeWoodpile tag w eps shift height pw resolution = .ok cl) : cl.depth = .ok (4 * height) := by
  obtain ⟨c, la, lb, lc, ld, a, b, hf, hd, -, -, -, -, -, ⟨d1, d2, d3, d4⟩, -⟩ := C77_layers h
  obtain ⟨c', h1, h2, -⟩ := setDevice_standard (m := .inr [false, false, false, false]) hf.void hf.noRef hf.noTrans
    hf.layers (by simp [maskList])
  rw [hd, Except.ok.injEq] at h1
  subst h1
  have hl := h2.layers
  simp only [List.zipWith_cons_cons, List.zipWith_nil_left, List.forall₂_cons, List.forall₂_nil_left_iff, and_true] at hl
  obtain ⟨⟨k1, -⟩, ⟨k2, -⟩, ⟨k3, -⟩, ⟨k4, -⟩⟩ := hl
  simp only [Crystal.depth, h2.device, attr, ok_bind, List.mapM_cons, List.mapM_nil, Crystal.layer, k1, k2, k3, k4, pure,
    Except.pure, List.map_cons, List.map_nil, AnyLayer.depth, List.foldl_cons, List.foldl_nil, d1, d2, d3, d4]
  congr 1
  ring

theorem half_rods_periodic (w : ℝ) {n j : ℕ} (hj : j < n) :
    (|across n j| ≤ w / 2 ↔ InRod w 0 (across n j)) ∧
    (|across n j - 1 / 2| ≤ w / 2 ∨ |across n j + 1 / 2| ≤ w / 2 ↔ InRod w (1 / 2) (across n j)) := by
  obtain ⟨h1, h2⟩ := across_range hj
  set y := across n j
  constructor
  · constructor
    · intro h; exact ⟨0, by simpa using h⟩
    · rintro ⟨m, hm⟩
      rw [sub_zero] at hm
      refine le_trans ?_ hm
      rcases lt_trichotomy m 0 with h0 | rfl | h0
      · have : (m : ℝ) ≤ -1 := by exact_mod_cast Int.le_sub_one_of_lt h0
        rw [abs_of_nonneg (show 0 ≤ y - m by linarith), abs_le]
        constructor <;> linarith
      · simp
      · have : (1 : ℝ) ≤ m := by exact_mod_cast h0
        rw [abs_of_nonpos (show y - m ≤ 0 by linarith), abs_le]
        constructor <;> linarith
  · constructor
    · rintro (h | h)
      · exact ⟨0, by simpa using h⟩
      · exact ⟨-1, by rw [show y - 1 / 2 - ((-1 : ℤ) : ℝ) = y + 1 / 2 by push_cast; ring]; exact h⟩
    · rintro ⟨m, hm⟩
      rcases lt_or_ge m 0 with h0 | h0
      · right
        refine le_trans ?_ hm
        have : (m : ℝ) ≤ -1 := by exact_mod_cast Int.le_sub_one_of_lt h0
        rw [abs_of_nonneg (show 0 ≤ y - 1 / 2 - m by linarith), abs_of_nonneg (by linarith)]
        linarith
      · left
        refine le_trans ?_ hm
        have : (0 : ℝ) ≤ m := by exact_mod_cast h0
        rw [abs_of_nonpos (show y - 1 / 2 - m ≤ 0 by linarith), abs_of_nonpos (by linarith)]
        linarith

/-- **C77.** With a shift of half a period, each layer is a row of rods of the given width, one per period, on the
axes `0` for A and B, on the axes `1/2` for C and D (rods that leave the cell on one side come back on the other). -/
theorem C77_periodic (h : makeWoodpile tag w eps (1 / 2) height pw resolution = .ok cl) :
    ∃ (c : Crystal (pw.1 * pw.2)) (la lb lc ld : Layer (pw.1 * pw.2)) (pa pb pc pd : Arr2),
      FreshDevice c ["A", "B", "C", "D"] (.inr [false, false, false, false]) [la, lb, lc, ld] 1 1 ∧
      c.setDevice ["A", "B", "C", "D"] (.inr [false, false, false, false]) = .ok cl ∧
      (la.form = .fft pa ∧ lb.form = .fft pb ∧ lc.form = .fft pc ∧ ld.form = .fft pd) ∧
      RodsAlongX (InRod w 0) eps.val pa ∧ RodsAlongY (InRod w 0) eps.val pb ∧
      RodsAlongX (InRod w (1 / 2)) eps.val pc ∧ RodsAlongY (InRod w (1 / 2)) eps.val pd := by
  obtain ⟨c, la, lb, lc, ld, a, b, hf, hd, -, fa, fb, fc, fd, -, -, r1, r2⟩ := C77_layers h
  have ra : RodsAlongX (InRod w 0) eps.val a := fun i j => by
    rw [← (half_rods_periodic w j.2).1]; exact r1 i j
  have rb : RodsAlongX (InRod w (1 / 2)) eps.val b := fun i j => by
    rw [← (half_rods_periodic w j.2).2]; exact r2 i j
  exact ⟨c, la, lb, lc, ld, a, _, b, _, hf, hd, ⟨fa, fb, fc, fd⟩, ra, fun i j => ra j i, rb, fun i j => rb j i⟩

/-- The rows of rods of layers A and C, with a shift of half a period. -/
def HalfRods (w : ℝ) (eps : ℂ) (a b : Arr2) : Prop :=
  RodsAlongX (fun y => |y| ≤ w / 2) eps a ∧ RodsAlongX (fun y => |y - 1 / 2| ≤ w / 2 ∨ |y + 1 / 2| ≤ w / 2) eps b

theorem halfRods_shifted {w : ℝ} {eps : ℂ} {k l m : ℕ} (hk : 0 < k) (hm : 0 < m)
    (h1 : 2 * (m : ℝ) - 1 ≤ w * (((2 * k : ℕ) : ℝ) - 1)) (h2 : w * (((2 * k : ℕ) : ℝ) - 1) < 2 * m)
    {a b : Fin (2 * l) → Fin (2 * k) → ℂ} (h : HalfRods w eps ⟨_, _, a⟩ ⟨_, _, b⟩) :
    Form.Shifted (1 / 2, 1 / 2) (.fft ⟨_, _, a⟩) (.fft ⟨_, _, b⟩) ∧
    Form.Shifted (1 / 2, 1 / 2) (.fft ⟨_, _, fun i j => a j i⟩) (.fft ⟨_, _, fun i j => b j i⟩) ∧
    Form.Shifted (1 / 2, 1 / 2) (.fft ⟨_, _, b⟩) (.fft ⟨_, _, a⟩) ∧
    Form.Shifted (1 / 2, 1 / 2) (.fft ⟨_, _, fun i j => b j i⟩) (.fft ⟨_, _, fun i j => a j i⟩) := by
  obtain ⟨ha, hb⟩ := h
  have key : ∀ (i i' : Fin (2 * l)) (j j' : Fin (2 * k)), (j' : ℕ) = (if (j : ℕ) < k then j + k else j - k) →
      b i j = a i' j' ∧ a i j = b i' j' := by
    intro i i' j j' hj
    obtain ⟨a1, a2⟩ := ha i j
    obtain ⟨a3, a4⟩ := ha i' j'
    obtain ⟨b1, b2⟩ := hb i j
    obtain ⟨b3, b4⟩ := hb i' j'
    simp only [(rod_pixels hk hm h1 h2).1] at a1 a2 a3 a4
    simp only [(rod_pixels hk hm h1 h2).2 j.2] at b1 b2
    simp only [(rod_pixels hk hm h1 h2).2 j'.2] at b3 b4
    have q1 : (2 * k ≤ (j : ℕ) + m ∨ (j : ℕ) + 1 ≤ m) ↔ (k ≤ (j' : ℕ) + m ∧ (j' : ℕ) + 1 ≤ k + m) := by
      have := j.2
      split_ifs at hj <;> omega
    have q2 : (2 * k ≤ (j' : ℕ) + m ∨ (j' : ℕ) + 1 ≤ m) ↔ (k ≤ (j : ℕ) + m ∧ (j : ℕ) + 1 ≤ k + m) := by
      have := j.2
      split_ifs at hj <;> omega
    constructor
    · by_cases q : k ≤ (j' : ℕ) + m ∧ (j' : ℕ) + 1 ≤ k + m
      · exact (b1 (q1.2 q)).trans (a3 q).symm
      · exact (b2 (fun z => q (q1.1 z))).trans (a4 q).symm
    · by_cases q : k ≤ (j : ℕ) + m ∧ (j : ℕ) + 1 ≤ k + m
      · exact (a1 q).trans (b3 (q2.2 q)).symm
      · exact (a2 q).trans (b4 (fun z => q (q2.1 z))).symm
  have hc : ∀ n : ℕ, ((n : ℕ) : ℝ) = 1 / 2 * ((2 * n : ℕ) : ℝ) := fun n => by push_cast; ring
  refine ⟨⟨l, k, hc l, hc k, ?_⟩, ⟨k, l, hc k, hc l, ?_⟩, ⟨l, k, hc l, hc k, ?_⟩, ⟨k, l, hc k, hc l, ?_⟩⟩
  · simp only [Arr2.roll, Form.fft.injEq, Arr2.mk.injEq, heq_eq_eq, true_and]
    funext i j
    exact (key i _ j _ (half_roll hk j.2)).1
  · simp only [Arr2.roll, Form.fft.injEq, Arr2.mk.injEq, heq_eq_eq, true_and]
    funext j i
    exact (key i _ j _ (half_roll hk j.2)).1
  · simp only [Arr2.roll, Form.fft.injEq, Arr2.mk.injEq, heq_eq_eq, true_and]
    funext i j
    exact (key i _ j _ (half_roll hk j.2)).2
  · simp only [Arr2.roll, Form.fft.injEq, Arr2.mk.injEq, heq_eq_eq, true_and]
    funext j i
    exact (key i _ j _ (half_roll hk j.2)).2

theorem halfRods_full {eps : ℂ} (he : eps ≠ 1) {a b : Fin 4 → Fin 4 → ℂ}
    (h : HalfRods (3 / 4) eps ⟨_, _, a⟩ ⟨_, _, b⟩) (sx sy : ℕ) : (⟨_, _, b⟩ : Arr2) ≠ Arr2.roll ⟨_, _, a⟩ sx sy := by
  obtain ⟨ha, hb⟩ := h
  have hfull : ∀ i j, b i j = eps := by
    intro i j
    refine (hb i j).1 ?_
    simp only [across]
    have : (j : ℕ) ≤ 1 ∨ 2 ≤ (j : ℕ) := by omega
    rcases this with h | h
    · right
      rw [abs_le]
      have : ((j : ℕ) : ℝ) ≤ 1 := by exact_mod_cast h
      have h0 : (0 : ℝ) ≤ ((j : ℕ) : ℝ) := Nat.cast_nonneg _
      norm_num
      constructor <;> linarith
    · left
      rw [abs_le]
      have : (2 : ℝ) ≤ ((j : ℕ) : ℝ) := by exact_mod_cast h
      have h0 : ((j : ℕ) : ℝ) ≤ 3 := by exact_mod_cast Nat.le_of_lt_succ j.2
      norm_num
      constructor <;> linarith
  have hz : ∀ i, a i 0 = 1 := by
    intro i
    refine (ha i 0).2 ?_
    simp only [across]
    norm_num [abs_of_nonneg]
  intro hr
  simp only [Arr2.roll, Arr2.mk.injEq, heq_eq_eq, true_and] at hr
  have := congrFun (congrFun hr 0) ⟨sy % 4, Nat.mod_lt _ (by norm_num)⟩
  rw [hfull] at this
  have e : ((sy % 4 + sy * (4 - 1)) % 4) = 0 := by omega
  have e' : (⟨(sy % 4 + sy * (4 - 1)) % 4, Nat.mod_lt _ (by norm_num)⟩ : Fin 4) = 0 := Fin.ext e
  apply he
  rw [this, e', hz]

/-- **C77**, for an even resolution and rods of `w * (n - 1)` pixels, when this number is between an odd integer and the
next even one: with a shift of half a period, C is A moved by half a period along both axes, and so is D with respect to
B; A, B, C, D moved by half a period along both axes is C, D, A, B.  (Such moves change no flux: C74.) -/
theorem C77_half_period_partial {k l m : ℕ} (hk : 0 < k) (hm : 0 < m)
    (h1 : 2 * (m : ℝ) - 1 ≤ w * (((2 * k : ℕ) : ℝ) - 1)) (h2 : w * (((2 * k : ℕ) : ℝ) - 1) < 2 * m)
    (h : makeWoodpile tag w eps (1 / 2) height pw (2 * l, 2 * k) = .ok cl) :
    ∃ (c : Crystal (pw.1 * pw.2)) (la lb lc ld : Layer (pw.1 * pw.2)),
      FreshDevice c ["A", "B", "C", "D"] (.inr [false, false, false, false]) [la, lb, lc, ld] 1 1 ∧
      c.setDevice ["A", "B", "C", "D"] (.inr [false, false, false, false]) = .ok cl ∧
      Form.Shifted (1 / 2, 1 / 2) la.form lc.form ∧ Form.Shifted (1 / 2, 1 / 2) lb.form ld.form ∧
      Form.Shifted (1 / 2, 1 / 2) lc.form la.form ∧ Form.Shifted (1 / 2, 1 / 2) ld.form lb.form := by
  obtain ⟨c, la, lb, lc, ld, ⟨nx, ny, a⟩, ⟨nx', ny', b⟩, hf, hd, -, fa, fb, fc, fd, -, ⟨e1, e2⟩, r1, r2⟩ := C77_layers h
  simp only [Prod.mk.injEq] at e1 e2
  obtain ⟨rfl, rfl⟩ := e1
  obtain ⟨rfl, rfl⟩ := e2
  obtain ⟨s1, s2, s3, s4⟩ := halfRods_shifted hk hm h1 h2 ⟨r1, r2⟩
  exact ⟨c, la, lb, lc, ld, hf, hd, by rw [fa, fc]; exact s1, by rw [fb, fd]; exact s2, by rw [fa, fc]; exact s3,
    by rw [fb, fd]; exact s4⟩

/-- **C77.** In general C is not A moved: the pixels of a drawing include both ends of the period, so that a rod cut in
two by the sides of the cell may be two pixels wider than the rod in the middle.  With 4 pixels and rods of width 3/4,
C is full. -/
theorem C77_half_period_counterexample : ∃ (c cl : Crystal (3 * 3)) (la lb lc ld : Layer (3 * 3)),
    makeWoodpile 0 (3 / 4) (.float 12) (1 / 2) (1 / 4) (3, 3) (4, 4) = .ok cl ∧
      FreshDevice c ["A", "B", "C", "D"] (.inr [false, false, false, false]) [la, lb, lc, ld] 1 1 ∧
      c.setDevice ["A", "B", "C", "D"] (.inr [false, false, false, false]) = .ok cl ∧
      ∀ u, ¬ Form.Shifted u la.form lc.form := by
  obtain ⟨cl, h⟩ := (C77_accepts 0 (3 / 4) (1 / 2) (1 / 4) (.float 12) (3, 3) (4, 4)).2
    ⟨rfl, by norm_num, by norm_num, ⟨1, rfl⟩, ⟨1, rfl⟩⟩
  obtain ⟨c, la, lb, lc, ld, ⟨nx, ny, a⟩, ⟨nx', ny', b⟩, hf, hd, -, fa, -, fc, -, -, ⟨e1, e2⟩, r1, r2⟩ := C77_layers h
  simp only [Prod.mk.injEq] at e1 e2
  obtain ⟨rfl, rfl⟩ := e1
  obtain ⟨rfl, rfl⟩ := e2
  refine ⟨c, cl, la, lb, lc, ld, h, hf, hd, fun u hu => ?_⟩
  rw [fa, fc] at hu
  obtain ⟨sx, sy, -, -, hu⟩ := hu
  exact halfRods_full (by simp [PyNum.val]) ⟨r1, r2⟩ sx sy (Form.fft.inj hu)

/-- Non-vacuity of C77: rods of width 1/4 and permittivity 12, at the default resolution; the rods are 63.75 pixels
wide, between 63 and 64. -/
example : (∃ cl, makeWoodpile 0 (1 / 4) (.float 12) (1 / 2) (1 / 4) (3, 3) (256, 256) = .ok cl) ∧
    2 * ((32 : ℕ) : ℝ) - 1 ≤ 1 / 4 * (((2 * 128 : ℕ) : ℝ) - 1) ∧ 1 / 4 * (((2 * 128 : ℕ) : ℝ) - 1) < 2 * ((32 : ℕ) : ℝ) := by
  refine ⟨(C77_accepts ..).2 ⟨rfl, by norm_num, by norm_num, ⟨1, rfl⟩, ⟨1, rfl⟩⟩, by norm_num, by norm_num⟩

end Khepri
