import Verif.Spec.Factory
import Verif.Lemmas.Builder
import Verif.Lemmas.DrawSeq

set_option linter.unusedSectionVars false

namespace Khepri

variable {nx ny : ℕ}

theorem across_eq {n j : ℕ} (h : j < n) : linspaceAt (-0.5) 0.5 n j = across n j := Drawing.linspaceAt_half h

theorem across_range {n j : ℕ} (h : j < n) : -(1 / 2) ≤ across n j ∧ across n j ≤ 1 / 2 := by
  have h1 : (j : ℝ) ≤ n - 1 := by
    have : (j : ℝ) + 1 ≤ n := by exact_mod_cast h
    linarith
  have h0 : (0 : ℝ) ≤ j := Nat.cast_nonneg j
  unfold across
  have h2 : (j : ℝ) / (n - 1) ≤ 1 := div_le_one_of_le₀ h1 (h0.trans h1)
  have h3 : 0 ≤ (j : ℝ) / (n - 1) := div_nonneg h0 (h0.trans h1)
  constructor <;> linarith

/-- A rod drawn across the whole cell. -/
theorem rod_eq_ok {d d' : Drawing nx ny} (hl : d.lattice = ((1, 0), (0, 1))) {c w : ℝ} {eps : PyNum} :
    d.rectangle (0, c) (1, w) eps = .ok d' → (eps.isComplex = true → d.cplx = true) ∧ d'.lattice = d.lattice ∧
      d'.cplx = d.cplx ∧ ∀ (i : Fin nx) (j : Fin ny), (|across ny j - c| ≤ w / 2 → d'.canvas i j = eps.val) ∧
        (¬ |across ny j - c| ≤ w / 2 → d'.canvas i j = d.canvas i j) := by
  intro h
  simp only [Drawing.rectangle, bind_eq_ok, Drawing.paint_eq_ok, pure, Except.pure, Except.ok.injEq] at h
  obtain ⟨d1, ⟨h1, rfl⟩, rfl⟩ := h
  refine ⟨h1, rfl, rfl, fun i j => ?_⟩
  have hx := across_range i.2
  have hX : d.X i j = across nx i := by simp [Drawing.X, hl, across_eq i.2]
  have hY : d.Y i j = across ny j := by simp [Drawing.Y, hl, across_eq j.2]
  have hmask : ((d.X i j ≥ 0 - 1 / 2 ∧ d.X i j ≤ 0 - 1 / 2 + 1) ∧ (d.Y i j ≥ c - w / 2 ∧ d.Y i j ≤ c - w / 2 + w)) ↔
      |across ny j - c| ≤ w / 2 := by
    rw [hX, hY, rectangle_mask, rectangle_mask, sub_zero, abs_le]
    exact ⟨And.right, fun k => ⟨hx, k⟩⟩
  simp only [Drawing.record]
  constructor
  · intro k; rw [if_pos (hmask.2 k)]
  · intro k; rw [if_neg (fun h => k (hmask.1 h))]

theorem rod_ok {d : Drawing nx ny} {c w : ℝ} {eps : PyNum} (h : eps.isComplex = true → d.cplx = true) :
    ∃ d', d.rectangle (0, c) (1, w) eps = .ok d' ∧ d'.cplx = d.cplx := by
  simp only [Drawing.rectangle, bind_eq_ok, Drawing.paint_eq_ok, pure, Except.pure, Except.ok.injEq]
  exact ⟨_, ⟨_, ⟨h, rfl⟩, rfl⟩, rfl⟩

theorem addAll_four {N : ℕ} (c : Crystal N) (a1 a2 a3 a4 : Crystal.Add) :
    c.addAll [a1, a2, a3, a4] = (do
      let c ← c.add a1
      let c ← c.add a2
      let c ← c.add a3
      c.add a4) := by
  simp only [Crystal.addAll, List.foldlM_cons, List.foldlM_nil]
  simp only [bind_pure]

/-- The steps of `make_woodpile`. -/
theorem makeWoodpile_eq_ok {tag : ℕ} {w shift height : ℝ} {eps : PyNum} {pw resolution : ℕ × ℕ}
    {cl : Crystal (pw.1 * pw.2)} :
    makeWoodpile tag w eps shift height pw resolution = .ok cl ↔
      ∃ d1 d2 d3 d4 d5 : _, ∃ c0 c : Crystal (pw.1 * pw.2),
        Drawing.make resolution.1 resolution.2 (.float 1) none = .ok d1 ∧ d1.rectangle (0, 0) (1, w) eps = .ok d2 ∧
        Drawing.make resolution.1 resolution.2 (.float 1) none = .ok d3 ∧
        d3.rectangle (0, shift) (1, w) eps = .ok d4 ∧ d4.rectangle (0, -shift) (1, w) eps = .ok d5 ∧
        Crystal.create tag pw (.name "square") 1 false 1 1 = .ok c0 ∧
        c0.addAll [.pixmap "A" d2.pixels height, .pixmap "B" d2.pixels.transpose height, .pixmap "C" d5.pixels height,
          .pixmap "D" d5.pixels.transpose height] = .ok c ∧
        c.setDevice ["A", "B", "C", "D"] (.inr [false, false, false, false]) = .ok cl := by
  simp only [makeWoodpile, addAll_four, bind_eq_ok]
  constructor
  · rintro ⟨d1, h1, d2, h2, d3, h3, d4, h4, d5, h5, c0, h6, c1, h7, c2, h8, c3, h9, c4, h10, h11⟩
    exact ⟨d1, d2, d3, d4, d5, c0, c4, h1, h2, h3, h4, h5, h6, ⟨c1, h7, c2, h8, c3, h9, h10⟩, h11⟩
  · rintro ⟨d1, d2, d3, d4, d5, c0, c4, h1, h2, h3, h4, h5, h6, ⟨c1, h7, c2, h8, c3, h9, h10⟩, h11⟩
    exact ⟨d1, h1, d2, h2, d3, h3, d4, h4, d5, h5, c0, h6, c1, h7, c2, h8, c3, h9, c4, h10, h11⟩

/-- Distances between pixels and the axis of a rod, in half pixels. -/
theorem across_dist {n j : ℕ} (hn : 1 < n) (c w : ℝ) :
    |across n j - c| ≤ w / 2 ↔ |2 * (j : ℝ) - (n - 1) * (1 + 2 * c)| ≤ w * (n - 1) := by
  have h1 : (0 : ℝ) < n - 1 := by
    have : (1 : ℝ) < n := by exact_mod_cast hn
    linarith
  have e : 2 * (j : ℝ) - (n - 1) * (1 + 2 * c) = (across n j - c) * (2 * (n - 1)) := by
    unfold across
    field_simp
    ring
  rw [e, abs_mul, abs_of_pos (show (0 : ℝ) < 2 * (n - 1) by linarith), show w * ((n : ℝ) - 1) = w / 2 * (2 * (n - 1)) by ring,
    mul_le_mul_iff_left₀ (by linarith)]

theorem int_abs_le {z : ℤ} {r : ℝ} {q : ℤ} (h1 : (q : ℝ) ≤ r) (h2 : r < q + 1) : |(z : ℝ)| ≤ r ↔ |z| ≤ q := by
  rw [← Int.cast_abs]
  constructor
  · intro h
    have : ((|z| : ℤ) : ℝ) < ((q + 1 : ℤ) : ℝ) := by push_cast at *; linarith
    have := Int.cast_lt.1 this
    omega
  · intro h
    have : ((|z| : ℤ) : ℝ) ≤ (q : ℝ) := by exact_mod_cast h
    linarith

/-- The pixels of the rods of a drawing with an even number of pixels across. -/
theorem rod_pixels {k m j : ℕ} {w : ℝ} (hk : 0 < k) (hm : 0 < m) (h1 : 2 * (m : ℝ) - 1 ≤ w * (((2 * k : ℕ) : ℝ) - 1))
    (h2 : w * (((2 * k : ℕ) : ℝ) - 1) < 2 * m) :
    (|across (2 * k) j| ≤ w / 2 ↔ k ≤ j + m ∧ j + 1 ≤ k + m) ∧
    (j < 2 * k → (|across (2 * k) j - 1 / 2| ≤ w / 2 ∨ |across (2 * k) j + 1 / 2| ≤ w / 2 ↔ 2 * k ≤ j + m ∨ j + 1 ≤ m)) := by
  have hq1 : ((2 * m - 1 : ℤ) : ℝ) ≤ w * (((2 * k : ℕ) : ℝ) - 1) := by push_cast at *; linarith
  have hq2 : w * (((2 * k : ℕ) : ℝ) - 1) < ((2 * m - 1 : ℤ) : ℝ) + 1 := by push_cast at *; linarith
  have hn : 1 < 2 * k := by omega
  have e1 : ∀ c : ℝ, ∀ z : ℤ, 2 * (j : ℝ) - (((2 * k : ℕ) : ℝ) - 1) * (1 + 2 * c) = (z : ℝ) →
      (|across (2 * k) j - c| ≤ w / 2 ↔ |z| ≤ 2 * m - 1) := by
    intro c z hz
    rw [across_dist hn, hz, int_abs_le hq1 hq2]
  constructor
  · have := e1 0 (2 * j - 2 * k + 1) (by push_cast; ring)
    rw [sub_zero] at this
    rw [this, abs_le]
    constructor
    · rintro ⟨h3, h4⟩; constructor <;> omega
    · rintro ⟨h3, h4⟩; constructor <;> omega
  · intro hj
    rw [← sub_neg_eq_add (across (2 * k) j), e1 (1 / 2) (2 * j - 4 * k + 2) (by push_cast; ring), e1 (-(1 / 2)) (2 * j) (by push_cast; ring),
      abs_le, abs_le]
    constructor
    · rintro (⟨h3, h4⟩ | ⟨h3, h4⟩)
      · left; omega
      · right; omega
    · rintro (h3 | h3)
      · left; constructor <;> omega
      · right; constructor <;> omega

theorem half_roll {k y : ℕ} (hk : 0 < k) (hy : y < 2 * k) :
    (y + k * (2 * k - 1)) % (2 * k) = if y < k then y + k else y - k := by
  have e : y + k * (2 * k - 1) = y + k + 2 * k * (k - 1) := by
    obtain ⟨q, rfl⟩ : ∃ q, k = q + 1 := ⟨k - 1, by omega⟩
    rw [show 2 * (q + 1) - 1 = 2 * q + 1 by omega, Nat.add_sub_cancel]
    ring
  rw [e, Nat.add_mul_mod_self_left]
  split_ifs with h
  · exact Nat.mod_eq_of_lt (by omega)
  · rw [Nat.mod_eq_sub_mod (by omega), Nat.mod_eq_of_lt (by omega)]
    omega

end Khepri
