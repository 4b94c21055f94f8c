import Verif.Model.Layout
import Verif.Lemmas.Py
import Mathlib.Tactic.Ring
import Mathlib.Tactic.FinCases

/-!
# C54, C65: block, dense and tiled layouts
-/

namespace Khepri

/-- Digits: the position of `(i, j)` in rows of length `n` gives back `i` and `j`. -/
theorem divMod_digits {n i j : ℕ} (h : j < n) : (i * n + j) / n = i ∧ (i * n + j) % n = j := by
  have hn : 0 < n := by omega
  constructor
  · rw [mul_comm, Nat.mul_add_div hn, Nat.div_eq_of_lt h, add_zero]
  · rw [mul_comm, Nat.mul_add_mod, Nat.mod_eq_of_lt h]

/-- Reading a four-dimensional array at the position of `(p, i, q, j)`. -/
theorem flat_digits (a : NArr4) {p i q j : ℕ} (hi : i < a.n1) (hq : q < a.n2) (hj : j < a.n3) :
    a.flat (((p * a.n1 + i) * a.n2 + q) * a.n3 + j) = a.at_ p i q j := by
  obtain ⟨d1, d2⟩ := divMod_digits (i := (p * a.n1 + i) * a.n2 + q) hj
  obtain ⟨d3, d4⟩ := divMod_digits (i := p * a.n1 + i) hq
  obtain ⟨d5, d6⟩ := divMod_digits (i := p) hi
  unfold NArr4.flat
  rw [show a.n1 * a.n2 * a.n3 = a.n3 * (a.n2 * a.n1) by ring, show a.n2 * a.n3 = a.n3 * a.n2 by ring,
    ← Nat.div_div_eq_div_mul, ← Nat.div_div_eq_div_mul, d1, d2, ← Nat.div_div_eq_div_mul, d1, d3, d4, d5, d6]

/-- **C54.** `block2dense` puts element `(i, j)` of block `(p, q)` in row `p s0 + i`, column `q s1 + j`. -/
theorem C54_dense (B : NArr4) : (block2dense B).n0 = B.n0 * B.n2 ∧ (block2dense B).n1 = B.n1 * B.n3 ∧
    ∀ p q i j, p < B.n0 → q < B.n1 → i < B.n2 → j < B.n3 →
      (block2dense B).at_ (p * B.n2 + i) (q * B.n3 + j) = B.at_ p q i j := by
  refine ⟨rfl, rfl, fun p q i j hp hq hi hj => ?_⟩
  have := flat_digits B.swap12 (p := p) (i := i) (q := q) (j := j) hi hq hj
  simp only [block2dense, NArr4.reshape2]
  rw [show (p * B.n2 + i) * (B.n1 * B.n3) + (q * B.n3 + j) =
    ((p * B.swap12.n1 + i) * B.swap12.n2 + q) * B.swap12.n3 + j by simp only [NArr4.swap12]; ring, this]
  rfl

/-- **C54.** Splitting a square matrix and joining the blocks gives back its largest even-sized corner; in particular
a matrix of even size comes back whole. -/
theorem C54_dense_split {S : NArr2} (hs : S.n0 = S.n1) : ∃ B, blockSplit S = .ok B ∧
    (block2dense B).n0 = 2 * (S.n0 / 2) ∧ (block2dense B).n1 = 2 * (S.n0 / 2) ∧
    ∀ i j, i < 2 * (S.n0 / 2) → j < 2 * (S.n0 / 2) → (block2dense B).at_ i j = S.at_ i j := by
  have h1 : min (S.n0 / 2) S.n1 = S.n0 / 2 := by omega
  have h2 : min (2 * (S.n0 / 2)) S.n1 - min (S.n0 / 2) S.n1 = S.n0 / 2 := by omega
  refine ⟨_, bind_eq_ok.2 ⟨(), pyCheck_ok (h1.trans h2.symm), rfl⟩, rfl, ?_, ?_⟩
  · simp only [block2dense, NArr4.reshape2, h1]
  · generalize hm : S.n0 / 2 = m at *
    intro i j hi hj
    have hm0 : 0 < m := by omega
    rw [h1]
    have := (C54_dense ⟨2, 2, m, m, fun p q i j => S.at_ (p * m + i) (q * m + j)⟩).2.2 (i / m) (j / m) (i % m) (j % m)
      (by rw [Nat.div_lt_iff_lt_mul hm0]; exact hi) (by rw [Nat.div_lt_iff_lt_mul hm0]; exact hj)
      (Nat.mod_lt _ hm0) (Nat.mod_lt _ hm0)
    simp only [Nat.div_add_mod'] at this
    exact this

/-- **C54.** Joining 2 x 2 equal square blocks and splitting gives back the blocks. -/
theorem C54_split_dense {B : NArr4} (h0 : B.n0 = 2) (h1 : B.n1 = 2) (h2 : B.n2 = B.n3) : ∃ B',
    blockSplit (block2dense B) = .ok B' ∧ B'.n0 = 2 ∧ B'.n1 = 2 ∧ B'.n2 = B.n2 ∧ B'.n3 = B.n3 ∧
    ∀ p q i j, p < 2 → q < 2 → i < B.n2 → j < B.n3 → B'.at_ p q i j = B.at_ p q i j := by
  have e0 : (block2dense B).n0 = 2 * B.n2 := by rw [← h0]; rfl
  have e1 : (block2dense B).n1 = 2 * B.n2 := by rw [h2, ← h1]; rfl
  have em : (block2dense B).n0 / 2 = B.n2 := by omega
  refine ⟨_, bind_eq_ok.2 ⟨(), pyCheck_ok (by rw [em, e1]; omega), rfl⟩, rfl, rfl, em, ?_, ?_⟩
  · simp only [em, e1]; omega
  · intro p q i j hp hq hi hj
    simp only [em]
    have := (C54_dense B).2.2 p q i j (by omega) (by omega) hi hj
    rw [← h2] at this
    exact this

/-- **C54.** A matrix with fewer columns than twice half its rows (and at least one) is refused. -/
theorem C54_refuses {S : NArr2} (h : S.n1 < 2 * (S.n0 / 2)) (h0 : S.n1 ≠ 0) : blockSplit S = .error .value := by
  unfold blockSplit
  simp only
  rw [pyCheck_err (by omega)]
  rfl

/-- Non-vacuity of C54: a 2 x 2 matrix and its four blocks. -/
example : ∃ B, blockSplit ⟨2, 2, fun i j => i + 10 * j⟩ = .ok B ∧ B.at_ 1 0 0 0 = 1 ∧
    (block2dense B).at_ 1 0 = 1 ∧ blockSplit ⟨2, 1, fun _ _ => 0⟩ = .error .value := by
  obtain ⟨B, hB, -, -, h⟩ := C54_dense_split (S := ⟨2, 2, fun i j => i + 10 * j⟩) rfl
  refine ⟨B, hB, ?_, by rw [h 1 0 (by norm_num) (by norm_num)]; norm_num, C54_refuses (by norm_num) (by norm_num)⟩
  obtain ⟨_, -, h⟩ := bind_eq_ok.1 hB
  cases h
  norm_num

/-! ## `split` -/

/-- **C65 (partial).** For a square array, tile `p (n / ncols) + q` of `split` is the one in tile row `p` and tile
column `q`.  What is missing: arrays that are not square (see the counterexample). -/
theorem C65_partial {a : NArr2} {nrows ncols : ℕ} (hs : a.n0 = a.n1) (hr : nrows ∣ a.n0) (hc : ncols ∣ a.n1)
    (h0 : a.n0 ≠ 0) : ∃ t, splitTiles a nrows ncols = .ok t ∧ t.n0 = a.n0 / nrows * (a.n1 / ncols) ∧ t.n1 = nrows ∧
      t.n2 = ncols ∧ ∀ p q i j, p < a.n0 / nrows → q < a.n1 / ncols → i < nrows → j < ncols →
        t.at_ (p * (a.n1 / ncols) + q) i j = a.at_ (p * nrows + i) (q * ncols + j) := by
  obtain ⟨n0, n1, v⟩ := a
  simp only at hs hr hc h0 ⊢
  subst hs
  obtain ⟨x, hx⟩ := hr
  obtain ⟨y, hy⟩ := hc
  have hr0 : 0 < nrows := Nat.pos_of_ne_zero (by rintro rfl; simp at hx; omega)
  have hc0 : 0 < ncols := Nat.pos_of_ne_zero (by rintro rfl; simp at hy; omega)
  have hdr : n0 / nrows = x := by rw [hx, Nat.mul_div_cancel_left _ hr0]
  have hdc : n0 / ncols = y := by rw [hy, Nat.mul_div_cancel_left _ hc0]
  have hd : x * nrows * ncols = n0 * ncols := by rw [hx]; ring
  have hnn : n0 * n0 = n0 * ncols * y := by rw [mul_assoc, ← hy]
  have hd2 : n0 * n0 / (x * nrows * ncols) = y := by
    rw [hd, hnn, Nat.mul_div_cancel_left _ (Nat.mul_pos (by omega) hc0)]
  refine ⟨_, bind_eq_ok.2 ⟨(), pyCheck_ok hr0.ne', bind_eq_ok.2 ⟨(), pyCheck_ok ?_, rfl⟩⟩, ?_, rfl, rfl, ?_⟩
  · simp only [hdr, hd]
    exact ⟨Nat.mul_ne_zero h0 hc0.ne', by rw [hnn]; exact dvd_mul_right _ _⟩
  · simp only [hdr, hdc, hd2]
  · intro p q i j hp hq hi hj
    simp only [hdr, hdc, hd2] at hp hq ⊢
    have := flat_digits (NArr4.swap12 ⟨x, nrows, y, ncols, fun i j k l =>
      NArr2.flat ⟨n0, n0, v⟩ (((i * nrows + j) * y + k) * ncols + l)⟩) (p := p) (i := q) (q := i) (j := j) hq hi hj
    simp only [NArr4.swap12] at this ⊢
    rw [this]
    simp only [NArr2.flat]
    have hlt : q * ncols + j < n0 := by
      rw [hy]
      calc q * ncols + j < q * ncols + ncols := by omega
        _ = ncols * (q + 1) := by ring
        _ ≤ ncols * y := Nat.mul_le_mul_left _ hq
    have e : ((p * nrows + i) * y + q) * ncols + j = (p * nrows + i) * n0 + (q * ncols + j) := by
      rw [hy]; ring
    rw [e]
    obtain ⟨d1, d2⟩ := divMod_digits (i := p * nrows + i) hlt
    rw [d1, d2]

/-- **C65, counterexample.** A 2 x 4 array split in 2 x 2 tiles: element (1, 0) of the first tile should be element
(1, 0) of the array and is element (0, 2). -/
theorem C65_counterexample : ∃ (v : ℕ → ℕ → ℂ) (t : NArr3), splitTiles ⟨2, 4, v⟩ 2 2 = .ok t ∧ t.n0 = 2 ∧ t.n1 = 2 ∧
    t.n2 = 2 ∧ t.at_ 0 1 0 = v 0 2 ∧ t.at_ 0 1 0 ≠ v 1 0 := by
  refine ⟨fun i j => i + 10 * j, _, bind_eq_ok.2 ⟨(), pyCheck_ok (by norm_num),
    bind_eq_ok.2 ⟨(), pyCheck_ok (by norm_num), rfl⟩⟩, by norm_num, rfl, rfl, ?_⟩
  norm_num [NArr4.swap12, NArr4.flat, NArr2.flat]

/-- Non-vacuity of C65: a 4 x 4 array in 2 x 2 tiles. -/
example (v : ℕ → ℕ → ℂ) : ∃ t, splitTiles ⟨4, 4, v⟩ 2 2 = .ok t ∧ t.n0 = 4 ∧ t.at_ 2 1 0 = v 3 0 := by
  obtain ⟨t, h, h0, -, -, hv⟩ := C65_partial (a := ⟨4, 4, v⟩) (nrows := 2) (ncols := 2) rfl ⟨2, rfl⟩ ⟨2, rfl⟩
    (by norm_num)
  exact ⟨t, h, h0.trans (by norm_num), by simpa using hv 1 0 1 0 (by norm_num) (by norm_num) (by norm_num) (by norm_num)⟩

end Khepri
