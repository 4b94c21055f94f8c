import Verif.Spec.Amplitudes
import Verif.Lemmas.Convolution
import Verif.Props.Expansion

set_option linter.unusedSectionVars false

namespace Khepri

open Complex

/-- The g-vectors of an expansion on its lattice. -/
theorem make_dots {tag : ℕ} {pw : ℕ × ℕ} {lat : R2 × R2} {e : Expansion (pw.1 * pw.2)}
    (h : Expansion.make tag pw lat = .ok e) (i : Fin (pw.1 * pw.2)) :
    dot2 lat.1 (e.g i) = 2 * Real.pi * (orderAt pw i).1 ∧ dot2 lat.2 (e.g i) = 2 * Real.pi * (orderAt pw i).2 := by
  obtain ⟨l, hl, hg⟩ := C22_gvectors h
  obtain ⟨h1, h2, -⟩ := make_eq_ok.1 h
  rw [generateExpansionIndices_eq h1 h2, Except.ok.injEq] at hl
  subst hl
  obtain ⟨m, n, hm, e1, e2⟩ := hg i
  rw [List.getElem?_map, List.getElem?_range i.2, Option.map_some, Option.some.injEq] at hm
  rw [hm]
  exact ⟨e1, e2⟩

theorem orderAt_not_dvd {pw : ℕ × ℕ} {n : ℕ} (h1 : pw.1 ≤ n) (h2 : pw.2 ≤ n) {g g' : ℕ} (hg : g < pw.1 * pw.2)
    (hg' : g' < pw.1 * pw.2) (hne : g ≠ g') :
    ¬ (n : ℤ) ∣ (orderAt pw g).1 - (orderAt pw g').1 ∨ ¬ (n : ℤ) ∣ (orderAt pw g).2 - (orderAt pw g').2 := by
  by_contra hcon
  rw [not_or, not_not, not_not] at hcon
  obtain ⟨d1, d2⟩ := hcon
  apply hne
  have hP : 0 < pw.1 := Nat.pos_of_mul_pos_right (Nat.zero_lt_of_lt hg)
  have a1 := Nat.mod_lt g hP
  have a2 := Nat.mod_lt g' hP
  have a3 : g / pw.1 < pw.2 := Nat.div_lt_of_lt_mul hg
  have a4 : g' / pw.1 < pw.2 := Nat.div_lt_of_lt_mul hg'
  apply orderAt_injOn (pw := pw)
  have hb : ∀ s t q c : ℕ, s < q → t < q → q ≤ n → |((s : ℤ) - c) - ((t : ℤ) - c)| < n := by
    intro s t q c h3 h4 h5
    rw [abs_lt]
    constructor <;> omega
  have z1 := Int.eq_zero_of_abs_lt_dvd d1 (hb _ _ _ _ a1 a2 h1)
  have z2 := Int.eq_zero_of_abs_lt_dvd d2 (hb _ _ _ _ a3 a4 h2)
  ext
  · linarith
  · linarith

theorem sum_wave_range {n : ℕ} (hn : n ≠ 0) {m : ℤ} (h : ¬ (n : ℤ) ∣ m) : ∑ v ∈ Finset.range n, wave n m v = 0 := by
  rw [Finset.sum_range]; exact sum_wave hn m h

/-- A pixel of a square cell, in the two numberings. -/
theorem swappedPixel_cell {bzs : ℕ × ℕ} {n i u v : ℕ} (hu : u < n) (hv : v < n) :
    swappedPixel bzs n n ((i * n + u) * n + v) = (i % bzs.2 * n + u, i / bzs.2 * n + v) := by
  have hn : 0 < n := by omega
  have e1 : ((i * n + u) * n + v) / n = i * n + u := by
    rw [Nat.add_comm, Nat.add_mul_div_right _ _ hn, Nat.div_eq_of_lt hv, Nat.zero_add]
  have e2 : ((i * n + u) * n + v) % n = v := by
    rw [Nat.add_comm, Nat.add_mul_mod_self_right, Nat.mod_eq_of_lt hv]
  have e3 : (i * n + u) / n = i := by
    rw [Nat.add_comm, Nat.add_mul_div_right _ _ hn, Nat.div_eq_of_lt hu, Nat.zero_add]
  have e4 : (i * n + u) % n = u := by
    rw [Nat.add_comm, Nat.add_mul_mod_self_right, Nat.mod_eq_of_lt hu]
  simp only [swappedPixel, e1, e2, e3, e4]

theorem splitPixel_cell {bzs : ℕ × ℕ} {n i u v : ℕ} (hu : u < n) (hv : v < n) :
    splitPixel bzs n n ((i * n + u) * n + v) = (i / bzs.1 * n + u, i % bzs.1 * n + v) := by
  have hn : 0 < n := by omega
  have e1 : ((i * n + u) * n + v) / n = i * n + u := by
    rw [Nat.add_comm, Nat.add_mul_div_right _ _ hn, Nat.div_eq_of_lt hv, Nat.zero_add]
  have e2 : ((i * n + u) * n + v) % n = v := by
    rw [Nat.add_comm, Nat.add_mul_mod_self_right, Nat.mod_eq_of_lt hv]
  have e3 : (i * n + u) / n = i := by
    rw [Nat.add_comm, Nat.add_mul_div_right _ _ hn, Nat.div_eq_of_lt hu, Nat.zero_add]
  have e4 : (i * n + u) % n = u := by
    rw [Nat.add_comm, Nat.add_mul_mod_self_right, Nat.mod_eq_of_lt hu]
  simp only [splitPixel, e1, e2, e3, e4]

theorem block_lt {a b n c u : ℕ} (hc : c < a) (hu : u < n) (hb : a = b) : c * n + u < b * n := by
  subst hb
  calc c * n + u < c * n + n := by omega
    _ = (c + 1) * n := by ring
    _ ≤ a * n := Nat.mul_le_mul_right _ hc

/-- One plane wave seen by another, on corresponding pixels of two cells. -/
theorem cell_wave {tag : ℕ} {pw : ℕ × ℕ} {lat : R2 × R2} {e : Expansion (pw.1 * pw.2)}
    (h : Expansion.make tag pw lat = .ok e) {n : ℕ} (hn : n ≠ 0) (o : R2) (g g' : Fin (pw.1 * pw.2))
    (c0 c1 d0 d1 u v : ℕ) :
    exp (I * ((e.g g').1 * (pixelPos o lat n (c1 * n + u) (c0 * n + v)).1 +
        (e.g g').2 * (pixelPos o lat n (c1 * n + u) (c0 * n + v)).2)) *
      exp (-(I * ((e.g g).1 * (pixelPos o lat n (d1 * n + u) (d0 * n + v)).1 +
        (e.g g).2 * (pixelPos o lat n (d1 * n + u) (d0 * n + v)).2))) =
    exp (I * (((e.g g').1 - (e.g g).1) * o.1 + ((e.g g').2 - (e.g g).2) * o.2)) *
      (wave n ((orderAt pw g).1 - (orderAt pw g').1) v * wave n ((orderAt pw g).2 - (orderAt pw g').2) u) := by
  obtain ⟨p1, p2⟩ := make_dots h g
  obtain ⟨q1, q2⟩ := make_dots h g'
  have hn0 : (n : ℂ) ≠ 0 := by exact_mod_cast hn
  simp only [dot2] at p1 p2 q1 q2
  have p1' : (lat.1.1 : ℂ) * (e.g g).1 + lat.1.2 * (e.g g).2 = 2 * Real.pi * (orderAt pw g).1 := by exact_mod_cast p1
  have p2' : (lat.2.1 : ℂ) * (e.g g).1 + lat.2.2 * (e.g g).2 = 2 * Real.pi * (orderAt pw g).2 := by exact_mod_cast p2
  have q1' : (lat.1.1 : ℂ) * (e.g g').1 + lat.1.2 * (e.g g').2 = 2 * Real.pi * (orderAt pw g').1 := by exact_mod_cast q1
  have q2' : (lat.2.1 : ℂ) * (e.g g').1 + lat.2.2 * (e.g g').2 = 2 * Real.pi * (orderAt pw g').2 := by exact_mod_cast q2
  have hone : exp (2 * Real.pi * I * (((orderAt pw g').1 * c0 + (orderAt pw g').2 * c1 - (orderAt pw g).1 * d0 -
      (orderAt pw g).2 * d1 : ℤ) : ℂ)) = 1 := by
    rw [exp_eq_one_iff]
    exact ⟨(orderAt pw g').1 * c0 + (orderAt pw g').2 * c1 - (orderAt pw g).1 * d0 - (orderAt pw g).2 * d1, by ring⟩
  rw [← mul_one (exp (I * (((e.g g').1 - (e.g g).1) * o.1 + ((e.g g').2 - (e.g g).2) * o.2)) * _), ← hone, wave, wave]
  simp only [← exp_add]
  congr 1
  simp only [pixelPos]
  push_cast
  have e1 : ((c0 * n + v : ℂ)) / n = c0 + v / n := by field_simp
  have e2 : ((c1 * n + u : ℂ)) / n = c1 + u / n := by field_simp
  have e3 : ((d0 * n + v : ℂ)) / n = d0 + v / n := by field_simp
  have e4 : ((d1 * n + u : ℂ)) / n = d1 + u / n := by field_simp
  rw [e1, e2, e3, e4, mul_div_assoc, mul_div_assoc]
  linear_combination I * (c0 + v / n) * q1' + I * (c1 + u / n) * q2' - I * (d0 + v / n) * p1' - I * (d1 + u / n) * p2'

/-- The Fourier sum over one cell. -/
theorem cell_sum {tag : ℕ} {pw : ℕ × ℕ} {lat : R2 × R2} {e : Expansion (pw.1 * pw.2)}
    (h : Expansion.make tag pw lat = .ok e) {n : ℕ} (h1 : pw.1 ≤ n) (h2 : pw.2 ≤ n) (hn : n ≠ 0) (o : R2)
    (a : Fin (pw.1 * pw.2) → ℂ) (kp : ℂ × ℂ) (g : Fin (pw.1 * pw.2)) (c0 c1 d0 d1 : ℕ) :
    ∑ u ∈ Finset.range n, ∑ v ∈ Finset.range n,
      blochField e kp a (pixelPos o lat n (c1 * n + u) (c0 * n + v)) /
        exp (I * (kp.1 * (pixelPos o lat n (c1 * n + u) (c0 * n + v)).1 +
          kp.2 * (pixelPos o lat n (c1 * n + u) (c0 * n + v)).2)) *
      exp (-(I * ((e.g g).1 * (pixelPos o lat n (d1 * n + u) (d0 * n + v)).1 +
        (e.g g).2 * (pixelPos o lat n (d1 * n + u) (d0 * n + v)).2))) = (n : ℂ) ^ 2 * a g := by
  have e1 : ∀ u v : ℕ, blochField e kp a (pixelPos o lat n (c1 * n + u) (c0 * n + v)) /
        exp (I * (kp.1 * (pixelPos o lat n (c1 * n + u) (c0 * n + v)).1 +
          kp.2 * (pixelPos o lat n (c1 * n + u) (c0 * n + v)).2)) *
      exp (-(I * ((e.g g).1 * (pixelPos o lat n (d1 * n + u) (d0 * n + v)).1 +
        (e.g g).2 * (pixelPos o lat n (d1 * n + u) (d0 * n + v)).2))) =
      ∑ g', a g' * (exp (I * (((e.g g').1 - (e.g g).1) * o.1 + ((e.g g').2 - (e.g g).2) * o.2)) *
      (wave n ((orderAt pw g).1 - (orderAt pw g').1) v * wave n ((orderAt pw g).2 - (orderAt pw g').2) u)) := by
    intro u v
    rw [blochField, Finset.sum_div, Finset.sum_mul]
    refine Finset.sum_congr rfl fun g' _ => ?_
    rw [← cell_wave h hn o g g' c0 c1 d0 d1 u v, mul_div_assoc, ← exp_sub, mul_assoc]
    congr 3
    ring
  simp only [e1]
  have e2 : ∀ g', ∑ u ∈ Finset.range n, ∑ v ∈ Finset.range n,
      a g' * (exp (I * (((e.g g').1 - (e.g g).1) * o.1 + ((e.g g').2 - (e.g g).2) * o.2)) *
      (wave n ((orderAt pw g).1 - (orderAt pw g').1) v * wave n ((orderAt pw g).2 - (orderAt pw g').2) u)) =
      if g' = g then (n : ℂ) ^ 2 * a g else 0 := by
    intro g'
    have : ∀ u v : ℕ, a g' * (exp (I * (((e.g g').1 - (e.g g).1) * o.1 + ((e.g g').2 - (e.g g).2) * o.2)) *
      (wave n ((orderAt pw g).1 - (orderAt pw g').1) v * wave n ((orderAt pw g).2 - (orderAt pw g').2) u)) =
      a g' * exp (I * (((e.g g').1 - (e.g g).1) * o.1 + ((e.g g').2 - (e.g g).2) * o.2)) *
        wave n ((orderAt pw g).2 - (orderAt pw g').2) u * wave n ((orderAt pw g).1 - (orderAt pw g').1) v :=
      fun u v => by ring
    simp only [this, ← Finset.mul_sum, ← Finset.sum_mul]
    split_ifs with hg
    · subst hg
      simp only [sub_self, wave_zero, zero_mul, add_zero, mul_zero, exp_zero, Finset.sum_const, Finset.card_range,
        nsmul_eq_mul, mul_one]
      ring
    · rcases orderAt_not_dvd h1 h2 g.2 g'.2 (fun q => hg (Fin.ext q.symm)) with q | q
      · rw [sum_wave_range hn q, mul_zero]
      · rw [sum_wave_range hn q, mul_zero, zero_mul]
  rw [Finset.sum_congr rfl fun u _ => Finset.sum_comm, Finset.sum_comm, Finset.sum_congr rfl fun g' _ => e2 g',
    Finset.sum_ite_eq' Finset.univ g]
  simp

end Khepri
