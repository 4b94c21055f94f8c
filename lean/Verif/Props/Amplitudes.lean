import Verif.Lemmas.Amplitudes

/-!
# C78: amplitudes of a field given on a grid
-/

namespace Khepri

open Complex

theorem amplitudes_square {N : ℕ} (mem : ℕ → Fin 4 → Fin N → ℂ) (fields : ℕ → ℕ → Fin 2 → Fin 3 → ℂ)
    (e : Expansion N) (kp : ℂ × ℂ) (x y : ℕ → ℕ → ℝ) {b0 b1 n : ℕ} (h0 : b0 ≠ 0) (h1 : b1 ≠ 0) (hn : n ≠ 0) :
    amplitudesFromFields mem (b1 * n) (b0 * n) fields e kp x y (b0, b1) = .ok fun j g =>
      ∑ i ∈ Finset.range (b0 * b1), (∑ u ∈ Finset.range n, ∑ v ∈ Finset.range n,
        fields (i % b1 * n + u) (i / b1 * n + v) ⟨j / 2, by omega⟩ ⟨j % 2, by omega⟩ /
          exp (I * (kp.1 * x (i % b1 * n + u) (i / b1 * n + v) + kp.2 * y (i % b1 * n + u) (i / b1 * n + v))) *
        exp (-(I * ((e.g g).1 * x (i / b0 * n + u) (i % b0 * n + v) + (e.g g).2 * y (i / b0 * n + u) (i % b0 * n + v)))))
        / (b0 * b1 : ℕ) / n := by
  have w1 : b0 * n / b0 = n := Nat.mul_div_cancel_left _ (Nat.pos_of_ne_zero h0)
  have w2 : b1 * n / b1 = n := Nat.mul_div_cancel_left _ (Nat.pos_of_ne_zero h1)
  have w3 : b0 * b1 * n * n / (n * n) = b0 * b1 := by
    rw [mul_assoc]; exact Nat.mul_div_cancel _ (Nat.pos_of_ne_zero (mul_ne_zero hn hn))
  have w4 : b0 * b1 * n * n % (n * n) = 0 := by rw [mul_assoc]; exact Nat.mul_mod_left _ _
  simp only [amplitudesFromFields, w1, w2, w3]
  rw [pyCheck_ok h0, ok_bind, pyCheck_ok (Nat.mul_mod_right _ _), ok_bind, pyCheck_ok h1, ok_bind,
    pyCheck_ok (Nat.mul_mod_right _ _), ok_bind, pyCheck_ok ⟨hn, w4⟩, ok_bind, pyCheck_ok le_rfl, ok_bind]
  simp only [pure, Except.pure]
  congr 1
  funext j g
  refine Finset.sum_congr rfl fun i hi => ?_
  rw [if_pos (Finset.mem_range.1 hi)]
  congr 2
  refine Finset.sum_congr rfl fun u hu => Finset.sum_congr rfl fun v hv => ?_
  rw [swappedPixel_cell (Finset.mem_range.1 hu) (Finset.mem_range.1 hv),
    splitPixel_cell (Finset.mem_range.1 hu) (Finset.mem_range.1 hv)]

/-- **C78**, but for a factor.  On a grid of `b0 x b1` cells of `n x n` pixels, with `n` at least the number of orders,
from the transverse fields of a superposition of the plane waves of the expansion, for any Bloch vector, the function
returns, for Ex, Ey, Hx and Hy and for each order, `n` times the amplitude.  (The full statement has no factor `n`.) -/
theorem C78_bloch_partial {tag : ℕ} {pw : ℕ × ℕ} {lat : R2 × R2} {e : Expansion (pw.1 * pw.2)}
    (he : Expansion.make tag pw lat = .ok e) (mem : ℕ → Fin 4 → Fin (pw.1 * pw.2) → ℂ) {b0 b1 n : ℕ} (h0 : b0 ≠ 0)
    (h1 : b1 ≠ 0) (hp1 : pw.1 ≤ n) (hp2 : pw.2 ≤ n) (o : R2) (kp : ℂ × ℂ) {x y : ℕ → ℕ → ℝ}
    (hxy : ∀ r c, r < b1 * n → c < b0 * n → (x r c, y r c) = pixelPos o lat n r c)
    (amp : Fin 2 → Fin 2 → Fin (pw.1 * pw.2) → ℂ) {fields : ℕ → ℕ → Fin 2 → Fin 3 → ℂ}
    (hf : ∀ r c, r < b1 * n → c < b0 * n → ∀ i j : Fin 2, fields r c i j.castSucc =
      blochField e kp (amp i j) (pixelPos o lat n r c)) :
    ∃ out, amplitudesFromFields mem (b1 * n) (b0 * n) fields e kp x y (b0, b1) = .ok out ∧
      ∀ (i j : Fin 2) g, out ⟨2 * i + j, by omega⟩ g = n * amp i j g := by
  obtain ⟨o1, o2, -⟩ := make_eq_ok.1 he
  have hn : n ≠ 0 := by omega
  refine ⟨_, amplitudes_square mem fields e kp x y h0 h1 hn, fun i j g => ?_⟩
  have hcell : ∀ k ∈ Finset.range (b0 * b1), (∑ u ∈ Finset.range n, ∑ v ∈ Finset.range n,
        fields (k % b1 * n + u) (k / b1 * n + v) ⟨(2 * i + j) / 2, by omega⟩ ⟨(2 * i + j) % 2, by omega⟩ /
          exp (I * (kp.1 * x (k % b1 * n + u) (k / b1 * n + v) + kp.2 * y (k % b1 * n + u) (k / b1 * n + v))) *
        exp (-(I * ((e.g g).1 * x (k / b0 * n + u) (k % b0 * n + v) + (e.g g).2 * y (k / b0 * n + u) (k % b0 * n + v)))))
        / (b0 * b1 : ℕ) / n = n * amp i j g / (b0 * b1 : ℕ) := by
    intro k hk
    have hk := Finset.mem_range.1 hk
    rw [← (show _ = (n : ℂ) ^ 2 * amp i j g / (b0 * b1 : ℕ) / n from rfl).trans
      (show _ = n * amp i j g / (b0 * b1 : ℕ) by
        have : (n : ℂ) ≠ 0 := by exact_mod_cast hn
        field_simp)]
    congr 2
    rw [← cell_sum he hp1 hp2 hn o (amp i j) kp g (k / b1) (k % b1) (k % b0) (k / b0)]
    refine Finset.sum_congr rfl fun u hu => Finset.sum_congr rfl fun v hv => ?_
    have hu := Finset.mem_range.1 hu
    have hv := Finset.mem_range.1 hv
    have r1 : k % b1 * n + u < b1 * n := block_lt (Nat.mod_lt _ (Nat.pos_of_ne_zero h1)) hu rfl
    have r2 : k / b1 * n + v < b0 * n := block_lt (Nat.div_lt_of_lt_mul (by rwa [mul_comm])) hv rfl
    have r3 : k / b0 * n + u < b1 * n := block_lt (Nat.div_lt_of_lt_mul hk) hu rfl
    have r4 : k % b0 * n + v < b0 * n := block_lt (Nat.mod_lt _ (Nat.pos_of_ne_zero h0)) hv rfl
    have x1 := hxy _ _ r1 r2
    have x2 := hxy _ _ r3 r4
    have f1 := hf _ _ r1 r2 i j
    rw [Prod.ext_iff] at x1 x2
    have ij : (⟨(2 * (i : ℕ) + j) / 2, by omega⟩ : Fin 2) = i := Fin.ext (by simp only; omega)
    have ji : (⟨(2 * (i : ℕ) + j) % 2, by omega⟩ : Fin 3) = j.castSucc := Fin.ext (by simp only [Fin.val_castSucc]; omega)
    rw [ij, ji, f1]
    simp only at x1 x2
    rw [x1.1, x1.2, x2.1, x2.2]
  simp only
  rw [Finset.sum_congr rfl hcell, Finset.sum_const, Finset.card_range, nsmul_eq_mul]
  have : ((b0 * b1 : ℕ) : ℂ) ≠ 0 := by exact_mod_cast mul_ne_zero h0 h1
  field_simp

/-- **C78.** The pixels read are in the image. -/
theorem C78_in_range {b0 b1 n i u v : ℕ} (hi : i < b0 * b1) (hu : u < n) (hv : v < n) :
    (swappedPixel (b0, b1) n n ((i * n + u) * n + v)).1 < b1 * n ∧
    (swappedPixel (b0, b1) n n ((i * n + u) * n + v)).2 < b0 * n ∧
    (splitPixel (b0, b1) n n ((i * n + u) * n + v)).1 < b1 * n ∧
    (splitPixel (b0, b1) n n ((i * n + u) * n + v)).2 < b0 * n := by
  rw [swappedPixel_cell hu hv, splitPixel_cell hu hv]
  have h0 : 0 < b0 := Nat.pos_of_mul_pos_right (Nat.zero_lt_of_lt hi)
  have h1 : 0 < b1 := Nat.pos_of_mul_pos_left (Nat.zero_lt_of_lt hi)
  exact ⟨block_lt (Nat.mod_lt _ h1) hu rfl, block_lt (Nat.div_lt_of_lt_mul (by rwa [mul_comm])) hv rfl,
    block_lt (Nat.div_lt_of_lt_mul hi) hu rfl, block_lt (Nat.mod_lt _ h0) hv rfl⟩

/-- The expansion of one order on the unit square lattice. -/
theorem oneOrder : ∃ e, Expansion.make 0 (1, 1) ((1, 0), (0, 1)) = .ok e :=
  ⟨_, make_eq_ok.2 ⟨rfl, rfl, _, reciproc_eq_ok.2 ⟨by norm_num, rfl⟩, rfl⟩⟩

/-- **C78.** The factor: for the plane wave of amplitude 1, at normal incidence, on a cell of 2 x 2 pixels, the amplitude
found is 2. -/
theorem C78_counterexample {e : Expansion (1 * 1)} (he : Expansion.make 0 (1, 1) ((1, 0), (0, 1)) = .ok e)
    (mem : ℕ → Fin 4 → Fin (1 * 1) → ℂ) :
    ∃ out, amplitudesFromFields mem (1 * 2) (1 * 2)
        (fun r c _ _ => blochField e (0, 0) (fun _ => 1) (pixelPos (0, 0) ((1, 0), (0, 1)) 2 r c)) e (0, 0)
        (fun r c => (pixelPos (0, 0) ((1, 0), (0, 1)) 2 r c).1) (fun r c => (pixelPos (0, 0) ((1, 0), (0, 1)) 2 r c).2)
        (1, 1) = .ok out ∧ out 0 0 = 2 ∧ out 0 0 ≠ 1 := by
  obtain ⟨out, h1, h2⟩ := C78_bloch_partial he mem (b0 := 1) (b1 := 1) (n := 2) one_ne_zero one_ne_zero (by norm_num)
    (by norm_num) (0, 0) (0, 0) (x := fun r c => (pixelPos (0, 0) ((1, 0), (0, 1)) 2 r c).1)
    (y := fun r c => (pixelPos (0, 0) ((1, 0), (0, 1)) 2 r c).2) (fun _ _ _ _ => rfl) (fun _ _ _ => 1)
    (fields := fun r c _ _ => blochField e (0, 0) (fun _ => 1) (pixelPos (0, 0) ((1, 0), (0, 1)) 2 r c))
    (fun _ _ _ _ _ _ => rfl)
  refine ⟨out, h1, ?_⟩
  have := h2 0 0 0
  simp only [Fin.val_zero, Nat.mul_zero, Nat.add_zero, Nat.cast_ofNat, mul_one] at this
  have h0 : out 0 0 = 2 := this
  exact ⟨h0, by rw [h0]; norm_num⟩

/-- **C78.** When the cells have as many columns as rows, what was in the memory of the result does not matter. -/
theorem C78_memory {N : ℕ} (mem mem' : ℕ → Fin 4 → Fin N → ℂ) (fields : ℕ → ℕ → Fin 2 → Fin 3 → ℂ)
    (e : Expansion N) (kp : ℂ × ℂ) (x y : ℕ → ℕ → ℝ) {b0 b1 n : ℕ} (h0 : b0 ≠ 0) (h1 : b1 ≠ 0) (hn : n ≠ 0) :
    amplitudesFromFields mem (b1 * n) (b0 * n) fields e kp x y (b0, b1) =
      amplitudesFromFields mem' (b1 * n) (b0 * n) fields e kp x y (b0, b1) := by
  rw [amplitudes_square mem _ _ _ _ _ h0 h1 hn, amplitudes_square mem' _ _ _ _ _ h0 h1 hn]

/-- **C78.** Otherwise it may: an image of 2 x 2 pixels cut in two cells of one column each is processed as one cell, and
the part of the result kept for the second cell is never written. -/
theorem C78_memory_counterexample {N : ℕ} (fields : ℕ → ℕ → Fin 2 → Fin 3 → ℂ) (e : Expansion N) (kp : ℂ × ℂ)
    (x y : ℕ → ℕ → ℝ) (z : ℂ) : ∃ out,
    amplitudesFromFields (fun _ _ _ => 0) 2 2 fields e kp x y (2, 1) = .ok out ∧
      amplitudesFromFields (fun _ _ _ => z) 2 2 fields e kp x y (2, 1) = .ok (fun j g => out j g + z) := by
  simp only [amplitudesFromFields]
  norm_num [pyCheck, ok_bind, pure, Except.pure, Finset.sum_range_succ]

/-- Non-vacuity of C78: an expansion of one order, 3 x 2 cells of 4 x 4 pixels, an oblique wave. -/
example : ∃ (e : Expansion (1 * 1)), Expansion.make 0 (1, 1) ((1, 0), (0, 1)) = .ok e ∧
    ∃ out, amplitudesFromFields (fun _ _ _ => 0) (2 * 4) (3 * 4)
      (fun r c _ _ => blochField e (1, 2) (fun _ => 5) (pixelPos (0, 0) ((1, 0), (0, 1)) 4 r c)) e (1, 2)
      (fun r c => (pixelPos (0, 0) ((1, 0), (0, 1)) 4 r c).1) (fun r c => (pixelPos (0, 0) ((1, 0), (0, 1)) 4 r c).2)
      (3, 2) = .ok out ∧ ∀ (i j : Fin 2) g, out ⟨2 * i + j, by omega⟩ g = (4 : ℕ) * 5 := by
  obtain ⟨e, he⟩ := oneOrder
  exact ⟨e, he, C78_bloch_partial he _ (by norm_num) (by norm_num) (by norm_num) (by norm_num) (0, 0) _
    (fun _ _ _ _ => rfl) (fun _ _ _ => 5) (fun _ _ _ _ _ _ => rfl)⟩

end Khepri
