import Verif.Spec.Windows
import Verif.Lemmas.Py

/-!
# C79: windows, arrows and grids
-/

namespace Khepri

theorem stridedConvolution_eq_ok {image : View} {weight : RArr2} {stride : ℤ} {r : ℕ × ℕ × (ℕ → ℕ → ℝ)} :
    stridedConvolution image weight stride = .ok r ↔ stride ≠ 0 ∧
      (0 ≤ 1 + Int.fdiv ((image.rows : ℤ) - weight.nx) stride ∧ 0 ≤ 1 + Int.fdiv ((image.cols : ℤ) - weight.ny) stride) ∧
      r = ((1 + Int.fdiv ((image.rows : ℤ) - weight.nx) stride).toNat,
        (1 + Int.fdiv ((image.cols : ℤ) - weight.ny) stride).toNat, fun (a b : ℕ) => ∑ c : Fin weight.nx, ∑ d : Fin weight.ny,
          image.memory (image.base + a * (image.s0 * stride) + b * (image.s1 * stride) + c * image.s0 + d * image.s1) *
            weight.val c d) := by
  simp only [stridedConvolution, bind_eq_ok, pyCheck_eq_ok, pure, Except.pure, Except.ok.injEq]
  constructor
  · rintro ⟨_, h1, _, h2, h3⟩; exact ⟨h1, h2, h3.symm⟩
  · rintro ⟨h1, h2, h3⟩; exact ⟨(), h1, (), h2, h3.symm⟩

/-- **C79.** `strided_convolution` with a positive stride and a filter not larger than the image: as many windows as fit,
starting every `stride` elements; each result is the weighted sum over its window, and every element it reads is an
element of the image. -/
theorem C79_convolution {image : View} {weight : RArr2} {s : ℕ} (hs : 0 < s) (h1 : weight.nx ≤ image.rows)
    (h2 : weight.ny ≤ image.cols) : ∃ h w f, stridedConvolution image weight s = .ok (h, w, f) ∧
      (∀ a, a < h ↔ a * s + weight.nx ≤ image.rows) ∧ (∀ b, b < w ↔ b * s + weight.ny ≤ image.cols) ∧
      (∀ a b, f a b = windowSum image weight (a * s) (b * s)) ∧
      ∀ a b, a < h → b < w → ∀ (c : Fin weight.nx) (d : Fin weight.ny), a * s + c < image.rows ∧ b * s + d < image.cols := by
  have key : ∀ n m : ℕ, m ≤ n → (1 + Int.fdiv ((n : ℤ) - m) s).toNat = 1 + (n - m) / s ∧
      0 ≤ 1 + Int.fdiv ((n : ℤ) - m) s ∧ ∀ a, a < 1 + (n - m) / s ↔ a * s + m ≤ n := by
    intro n m hm
    have e : Int.fdiv ((n : ℤ) - m) s = ((n - m) / s : ℕ) := by
      rw [Int.fdiv_eq_ediv_of_nonneg _ (by positivity), ← Nat.cast_sub hm]
      norm_cast
    rw [e]
    generalize hq : (n - m) / s = q
    refine ⟨by omega, by omega, fun a => ?_⟩
    subst hq
    rw [Nat.lt_one_add_iff, Nat.le_div_iff_mul_le hs]
    omega
  obtain ⟨r1, r2, r3⟩ := key image.rows weight.nx h1
  obtain ⟨c1, c2, c3⟩ := key image.cols weight.ny h2
  refine ⟨_, _, _, stridedConvolution_eq_ok.2 ⟨by exact_mod_cast hs.ne', ⟨r2, c2⟩, rfl⟩, ?_, ?_, ?_, ?_⟩
  · rw [r1]; exact r3
  · rw [c1]; exact c3
  · intro a b
    simp only [windowSum, View.at]
    refine Finset.sum_congr rfl fun c _ => Finset.sum_congr rfl fun d _ => ?_
    congr 2
    push_cast
    ring
  · intro a b ha hb c d
    rw [r1] at ha
    rw [c1] at hb
    have h3 := (r3 a).1 ha
    have h4 := (c3 b).1 hb
    have := c.2
    have := d.2
    omega

/-- **C79.** A filter larger than the image, by up to a stride, gives no window at all; a larger one is refused, and so is
a null stride. -/
theorem C79_accepts {image : View} {weight : RArr2} :
    stridedConvolution image weight 0 = .error .nonFinite ∧ ∀ s : ℕ, 0 < s →
      ((∃ r, stridedConvolution image weight s = .ok r) ↔ weight.nx ≤ image.rows + s ∧ weight.ny ≤ image.cols + s) ∧
      (image.rows < weight.nx → ∀ r, stridedConvolution image weight s = .ok r → r.1 = 0) := by
  refine ⟨by simp [stridedConvolution, pyCheck, error_bind], fun s hs => ?_⟩
  have key : ∀ n m : ℕ, (0 ≤ 1 + Int.fdiv ((n : ℤ) - m) s ↔ m ≤ n + s) ∧
      (n < m → (1 + Int.fdiv ((n : ℤ) - m) s).toNat = 0) := by
    intro n m
    have hs' : (0 : ℤ) < s := by exact_mod_cast hs
    rw [Int.fdiv_eq_ediv_of_nonneg _ hs'.le]
    constructor
    · have := Int.le_ediv_iff_mul_le (a := -1) (b := (n : ℤ) - m) hs'
      constructor
      · intro h
        have := this.1 (by omega)
        omega
      · intro h
        have := this.2 (by omega)
        omega
    · intro h
      have : ((n : ℤ) - m) / s < 0 := Int.ediv_neg_of_neg_of_pos (by omega) hs'
      omega
  constructor
  · constructor
    · rintro ⟨r, hr⟩
      obtain ⟨-, ⟨q1, q2⟩, -⟩ := stridedConvolution_eq_ok.1 hr
      exact ⟨(key _ _).1.1 q1, (key _ _).1.1 q2⟩
    · rintro ⟨q1, q2⟩
      exact ⟨_, stridedConvolution_eq_ok.2 ⟨by exact_mod_cast hs.ne', ⟨(key _ _).1.2 q1, (key _ _).1.2 q2⟩, rfl⟩⟩
  · intro h r hr
    obtain ⟨-, -, rfl⟩ := stridedConvolution_eq_ok.1 hr
    exact (key _ _).2 h

/-- **C79.** The result depends on the elements of the image only, not on the way they are stored or on what is around
them: views, transposes and slices may be given. -/
theorem C79_layout {image image' : View} {weight : RArr2} {s : ℕ} (hs : 0 < s) (h1 : weight.nx ≤ image.rows)
    (h2 : weight.ny ≤ image.cols) (h : image.Same image') : ∃ h w f f',
      stridedConvolution image weight s = .ok (h, w, f) ∧ stridedConvolution image' weight s = .ok (h, w, f') ∧
      ∀ a b, a < h → b < w → f a b = f' a b := by
  obtain ⟨e1, e2, e3⟩ := h
  obtain ⟨m, w, f, k1, k2, k3, k4, k5⟩ := C79_convolution hs h1 h2
  obtain ⟨m', w', f', l1, l2, l3, l4, -⟩ := C79_convolution (image := image') (weight := weight) hs (e1 ▸ h1) (e2 ▸ h2)
  have em : m' = m := by
    refine eq_of_forall_lt_iff fun a => ?_
    rw [k2, l2, e1]
  have ew : w' = w := by
    refine eq_of_forall_lt_iff fun a => ?_
    rw [k3, l3, e2]
  subst em ew
  refine ⟨_, _, f, f', k1, l1, fun a b ha hb => ?_⟩
  rw [k4, l4, windowSum, windowSum]
  refine Finset.sum_congr rfl fun c _ => Finset.sum_congr rfl fun d _ => ?_
  obtain ⟨q1, q2⟩ := k5 a b ha hb c d
  rw [e3 _ q1 _ q2]

/-- **C79.** With a negative stride and a filter larger than the image, elements outside of the image are read: two
images of the same single element, with different results. -/
theorem C79_stride_counterexample : ∃ (image image' : View) (weight : RArr2), image.Same image' ∧ ∃ f f',
    stridedConvolution image weight (-1) = .ok (2, 1, f) ∧ stridedConvolution image' weight (-1) = .ok (2, 1, f') ∧
      f 0 0 ≠ f' 0 0 := by
  refine ⟨⟨fun _ => 0, 0, 1, 1, 1, 1⟩, ⟨fun k => if k = 1 then 1 else 0, 0, 1, 1, 1, 1⟩, ⟨2, 1, fun _ _ => 1⟩,
    ⟨rfl, rfl, ?_⟩, _, _, stridedConvolution_eq_ok.2 ⟨by decide, ⟨by decide, by decide⟩, rfl⟩,
    stridedConvolution_eq_ok.2 ⟨by decide, ⟨by decide, by decide⟩, rfl⟩, ?_⟩
  · intro i hi j hj
    have : i = 0 := by simpa using hi
    have : j = 0 := by simpa using hj
    subst i j
    simp [View.at]
  · simp only [Finset.univ_unique, Finset.sum_singleton]
    rw [Fin.sum_univ_two, Fin.sum_univ_two]
    norm_num

/-- The window of ones is the mean. -/
theorem windowSum_mean (image : View) (n i j : ℕ) :
    windowSum image ⟨n, n, fun _ _ => 1 / (n : ℝ) ^ 2⟩ i j = windowMean image n i j := by
  simp only [windowSum, windowMean, Finset.sum_range, ← Finset.sum_mul]
  ring

/-- **C79**, but for the components, which are exchanged.  With `subsample` at least 1 and images of at least
`2 * subsample + 1` elements along both axes, the arrows drawn are those of the means over the windows of
`2 * subsample + 1` elements that start every `subsample` elements: means of the positions, and of the components; but VX
is drawn vertically and VY horizontally.  (In the full statement, VX is the horizontal component.) -/
theorem C79_quiver_partial {X Y VX VY : View} {s : ℕ} (hs : 0 < s)
    (h : ∀ V ∈ [X, Y, VX, VY], 2 * s + 1 ≤ V.rows ∧ 2 * s + 1 ≤ V.cols) :
    ∃ q, quiver X Y VX VY s = .ok q ∧ ∀ a b, q.x.2.2 a b = windowMean X (2 * s + 1) (a * s) (b * s) ∧
      q.y.2.2 a b = windowMean Y (2 * s + 1) (a * s) (b * s) ∧ q.u.2.2 a b = windowMean VY (2 * s + 1) (a * s) (b * s) ∧
      q.v.2.2 a b = windowMean VX (2 * s + 1) (a * s) (b * s) := by
  have e : ((s : ℤ) * 2 + 1).toNat = 2 * s + 1 := by omega
  have e' : (((s : ℤ) * 2 + 1 : ℤ) : ℝ) = ((2 * s + 1 : ℕ) : ℝ) := by push_cast; ring
  have key : ∀ V ∈ [X, Y, VX, VY], ∃ r, stridedConvolution V ⟨2 * s + 1, 2 * s + 1, fun _ _ => 1 / ((2 * s + 1 : ℕ) : ℝ) ^ 2⟩ s
      = .ok r ∧ ∀ a b, r.2.2 a b = windowMean V (2 * s + 1) (a * s) (b * s) := by
    intro V hV
    obtain ⟨h1, h2⟩ := h V hV
    obtain ⟨m, w, f, k1, -, -, k4, -⟩ := C79_convolution (image := V)
      (weight := ⟨2 * s + 1, 2 * s + 1, fun _ _ => 1 / ((2 * s + 1 : ℕ) : ℝ) ^ 2⟩) hs h1 h2
    exact ⟨_, k1, fun a b => (k4 a b).trans (windowSum_mean V (2 * s + 1) (a * s) (b * s))⟩
  obtain ⟨rx, x1, x2⟩ := key X (by simp)
  obtain ⟨ry, y1, y2⟩ := key Y (by simp)
  obtain ⟨ru, u1, u2⟩ := key VX (by simp)
  obtain ⟨rv, v1, v2⟩ := key VY (by simp)
  refine ⟨⟨rx, ry, rv, ru⟩, ?_, fun a b => ⟨x2 a b, y2 a b, v2 a b, u2 a b⟩⟩
  have eK : (⟨((s : ℤ) * 2 + 1).toNat, ((s : ℤ) * 2 + 1).toNat, fun _ _ => 1 / (((s : ℤ) * 2 + 1 : ℤ) : ℝ) ^ 2⟩ : RArr2) =
      ⟨2 * s + 1, 2 * s + 1, fun _ _ => 1 / ((2 * s + 1 : ℕ) : ℝ) ^ 2⟩ := by rw [e, e']
  simp only [quiver]
  rw [eK, pyCheck_ok (by omega), ok_bind, u1, ok_bind, v1, ok_bind, x1, ok_bind, y1, ok_bind]
  rfl

/-- **C79.** A horizontal vector (1, 0) everywhere is drawn as vertical arrows (0, 1). -/
theorem C79_quiver_counterexample : ∃ q, quiver ⟨fun _ => 0, 0, 3, 1, 3, 3⟩ ⟨fun _ => 0, 0, 3, 1, 3, 3⟩
    ⟨fun _ => 1, 0, 3, 1, 3, 3⟩ ⟨fun _ => 0, 0, 3, 1, 3, 3⟩ 1 = .ok q ∧ q.u.2.2 0 0 = 0 ∧ q.v.2.2 0 0 = 1 := by
  obtain ⟨q, h, h2⟩ := C79_quiver_partial (X := ⟨fun _ => 0, 0, 3, 1, 3, 3⟩) (Y := ⟨fun _ => 0, 0, 3, 1, 3, 3⟩)
    (VX := ⟨fun _ => 1, 0, 3, 1, 3, 3⟩) (VY := ⟨fun _ => 0, 0, 3, 1, 3, 3⟩) one_pos (by simp)
  obtain ⟨-, -, h3, h4⟩ := h2 0 0
  refine ⟨q, h, ?_, ?_⟩
  · rw [h3]; simp [windowMean, View.at]
  · rw [h4]; simp [windowMean, View.at]; norm_num

/-- **C79.** Positions that vary evenly along the rows and the columns: an arrow is at the centre of its window, which
is a point of the grid. -/
theorem C79_positions {X : View} {x0 dx dy : ℝ} {n : ℕ} {i j : ℕ}
    (h : ∀ c < 2 * n + 1, ∀ d < 2 * n + 1, X.at (i + c) (j + d) = x0 + (i + c : ℕ) * dx + (j + d : ℕ) * dy) :
    windowMean X (2 * n + 1) i j = X.at (i + n) (j + n) := by
  have hsum : ∀ m : ℕ, ∑ c ∈ Finset.range (2 * m + 1), (c : ℝ) = m * (2 * m + 1) := by
    intro m
    induction m with
    | zero => simp
    | succ m ih =>
      rw [show 2 * (m + 1) + 1 = 2 * m + 1 + 1 + 1 by ring, Finset.sum_range_succ, Finset.sum_range_succ, ih]
      push_cast
      ring
  have e : ∑ c ∈ Finset.range (2 * n + 1), ∑ d ∈ Finset.range (2 * n + 1), X.at (i + c) (j + d) =
      ∑ c ∈ Finset.range (2 * n + 1), ∑ d ∈ Finset.range (2 * n + 1), (x0 + i * dx + j * dy + dx * c + dy * d) := by
    refine Finset.sum_congr rfl fun c hc => Finset.sum_congr rfl fun d hd => ?_
    rw [h c (Finset.mem_range.1 hc) d (Finset.mem_range.1 hd)]
    push_cast
    ring
  rw [windowMean, e, h n (by omega) n (by omega)]
  simp only [Finset.sum_add_distrib, Finset.sum_const, Finset.card_range, nsmul_eq_mul, ← Finset.mul_sum, hsum]
  have : ((2 * n + 1 : ℕ) : ℝ) ≠ 0 := by positivity
  rw [div_eq_iff (pow_ne_zero _ this)]
  push_cast
  ring

/-- **C79.** `coords`: x varies along the columns and y along the rows, from the first bound to the last one included
when there are two points or more, by equal steps; a single point is at the first bound. -/
theorem C79_coords (xmin xmax ymin ymax zmin zmax : ℝ) (rx ry rz : ℕ) :
    let r := coords xmin xmax ymin ymax zmin zmax (rx, ry, rz)
    ((r.1.nx, r.1.ny) = (ry, rx) ∧ (r.2.1.nx, r.2.1.ny) = (ry, rx) ∧ r.2.2.length = rz) ∧
    ∀ (p : ℕ → ℝ) (lo hi : ℝ) (n : ℕ), ((∀ (i : Fin r.1.nx) (j : Fin r.1.ny), r.1.val i j = p j) ∧ lo = xmin ∧ hi = xmax ∧
          n = rx ∧ 0 < ry) ∨
        ((∀ (i : Fin r.2.1.nx) (j : Fin r.2.1.ny), r.2.1.val i j = p i) ∧ lo = ymin ∧ hi = ymax ∧ n = ry ∧ 0 < rx) ∨
        ((∀ k (hk : k < r.2.2.length), r.2.2[k] = p k) ∧ lo = zmin ∧ hi = zmax ∧ n = rz) →
      (0 < n → p 0 = lo) ∧ (1 < n → p (n - 1) = hi) ∧ ∀ k, k + 2 < n → p (k + 2) - p (k + 1) = p (k + 1) - p k := by
  have key : ∀ (lo hi : ℝ) (n : ℕ) (p : ℕ → ℝ), (∀ k < n, p k = linspaceAt lo hi n k) →
      (0 < n → p 0 = lo) ∧ (1 < n → p (n - 1) = hi) ∧ ∀ k, k + 2 < n → p (k + 2) - p (k + 1) = p (k + 1) - p k := by
    intro lo hi n p hp
    refine ⟨fun h => ?_, fun h => ?_, fun k hk => ?_⟩
    · rw [hp 0 h, linspaceAt]
      split_ifs <;> simp
    · rw [hp (n - 1) (by omega), linspaceAt, if_neg (by omega), Nat.cast_sub h.le]
      have : (n : ℝ) - 1 ≠ 0 := by
        have : (1 : ℝ) < n := by exact_mod_cast h
        linarith
      field_simp
      push_cast
      ring
    · rw [hp _ hk, hp _ (by omega), hp _ (by omega)]
      simp only [linspaceAt, if_neg (show ¬ n ≤ 1 by omega)]
      push_cast
      ring
  intro r
  refine ⟨⟨rfl, rfl, by simp [r, coords]⟩, ?_⟩
  rintro p lo hi n (⟨h, rfl, rfl, rfl, hy⟩ | ⟨h, rfl, rfl, rfl, hx⟩ | ⟨h, rfl, rfl, rfl⟩)
  · exact key _ _ _ p fun k hk => (h ⟨0, hy⟩ ⟨k, hk⟩).symm
  · exact key _ _ _ p fun k hk => (h ⟨k, hk⟩ ⟨0, hx⟩).symm
  · refine key _ _ _ p fun k hk => ?_
    rw [← h k (by simpa [r, coords] using hk)]
    simp [r, coords]

/-- Non-vacuity of C79: a transposed view of 5 x 4 elements, windows of 3 x 3 with stride 2; a row of positions. -/
example : ∃ h w f, stridedConvolution ⟨fun k => k, 0, 1, 5, 5, 4⟩ ⟨3, 3, fun _ _ => 1⟩ (2 : ℕ) = .ok (h, w, f) ∧
    (⟨fun k => k, 0, 1, 5, 5, 4⟩ : View).at 1 2 = 11 := by
  obtain ⟨h, w, f, h1, -⟩ := C79_convolution (image := ⟨fun k => k, 0, 1, 5, 5, 4⟩) (weight := ⟨3, 3, fun _ _ => 1⟩)
    two_pos (by norm_num) (by norm_num)
  exact ⟨h, w, f, h1, by norm_num [View.at]⟩

example : windowMean ⟨fun k => k, 0, 0, 1, 8, 8⟩ (2 * 2 + 1) 1 1 = 3 := by
  rw [C79_positions (x0 := 0) (dx := 0) (dy := 1) (n := 2) (fun c _ d _ => by simp [View.at])]
  norm_num [View.at]

end Khepri
