import Verif.Model.Beams
import Verif.Lemmas.Stack
import Verif.Lemmas.Py
import Verif.Spec.Beams
import Mathlib.RingTheory.RootsOfUnity.Complex
import Mathlib.Algebra.Field.GeomSum

/-! Brillouin-zone grids and paths. -/

set_option linter.unusedSectionVars false

namespace Khepri

open Complex

/-- Midpoint `i` of `n` equal parts of the interval from -1/2 to 1/2. -/
noncomputable def midpoint (n i : ℕ) : ℝ := (2 * i + 1) / (2 * n) - 1 / 2

theorem npArange_mid {n : ℕ} (hn : n ≠ 0) :
    npArange (-0.5 + 1 / (n : ℝ) / 2) 0.5 (1 / n) = (List.range n).map (midpoint n) := by
  have h0 : (n : ℝ) ≠ 0 := by exact_mod_cast hn
  have hl : ⌈((0.5 : ℝ) - (-0.5 + 1 / (n : ℝ) / 2)) / (1 / n)⌉ = (n : ℤ) := by
    have : ((0.5 : ℝ) - (-0.5 + 1 / (n : ℝ) / 2)) / (1 / n) = n - 1 / 2 := by field_simp; ring
    rw [this, Int.ceil_eq_iff]
    push_cast
    constructor <;> linarith
  unfold npArange
  rw [hl, Int.toNat_natCast]
  refine List.map_congr_left fun i _ => ?_
  unfold midpoint
  field_simp
  ring

theorem genBziGrid_ok {shape : ℕ × ℕ} {a : ℝ} {rec : Option (R2 × R2)} {g : List (List R2)} :
    genBziGrid shape a rec = .ok g ↔ ∃ b, bziBasis a rec = .ok b ∧ shape.1 ≠ 0 ∧ shape.2 ≠ 0 ∧
      g = (List.range shape.1).map fun i => (List.range shape.2).map fun j =>
        (b.1.1 * midpoint shape.1 i + b.2.1 * midpoint shape.2 j, b.1.2 * midpoint shape.1 i + b.2.2 * midpoint shape.2 j) := by
  unfold genBziGrid
  simp only [bind_eq_ok, pyCheck_eq_ok, pure, Except.pure, Except.ok.injEq]
  constructor
  · rintro ⟨b, hb, _, ⟨h1, h2⟩, rfl⟩
    refine ⟨b, hb, h1, h2, ?_⟩
    rw [npArange_mid h1, npArange_mid h2, List.map_map]
    refine List.map_congr_left fun i _ => ?_
    simp only [Function.comp_apply, List.map_map]; rfl
  · rintro ⟨b, hb, h1, h2, rfl⟩
    refine ⟨b, hb, (), ⟨h1, h2⟩, ?_⟩
    rw [npArange_mid h1, npArange_mid h2, List.map_map]
    refine List.map_congr_left fun i _ => ?_
    simp only [Function.comp_apply, List.map_map]; rfl

theorem midpoint_bound {n i : ℕ} (h : i < n) : -1 / 2 < midpoint n i ∧ midpoint n i < 1 / 2 := by
  have hn : (0 : ℝ) < n := by exact_mod_cast (by omega : 0 < n)
  have hi : (i : ℝ) + 1 ≤ n := by exact_mod_cast h
  have hi0 : (0 : ℝ) ≤ i := Nat.cast_nonneg _
  unfold midpoint
  constructor
  · have : 0 < (2 * (i : ℝ) + 1) / (2 * n) := by positivity
    linarith
  · have : (2 * (i : ℝ) + 1) / (2 * n) < 1 := by
      rw [div_lt_one (by positivity)]; linarith
    linarith

theorem midpoint_neg {n i : ℕ} (h : i < n) : midpoint n (n - 1 - i) = -midpoint n i := by
  have hn : (n : ℝ) ≠ 0 := by exact_mod_cast (by omega : n ≠ 0)
  unfold midpoint
  rw [Nat.cast_sub (by omega), Nat.cast_sub (by omega)]
  push_cast
  field_simp
  ring

theorem midpoint_inj {n i j : ℕ} (h : i < n) (e : midpoint n i = midpoint n j) : i = j := by
  have hn : (n : ℝ) ≠ 0 := by exact_mod_cast (by omega : n ≠ 0)
  unfold midpoint at e
  field_simp at e
  have : (i : ℝ) = j := by linarith
  exact_mod_cast this

/-- Waves of integer wave number add up to 0 over the midpoints unless the number is a multiple of how many there are. -/
theorem midpoint_sum {n : ℕ} (hn : n ≠ 0) (m : ℤ) (hm : ¬ (n : ℤ) ∣ m) :
    ∑ i ∈ Finset.range n, exp (2 * Real.pi * I * m * midpoint n i) = 0 := by
  have h0 : (n : ℂ) ≠ 0 := by exact_mod_cast hn
  have e : ∀ i ∈ Finset.range n, exp (2 * Real.pi * I * m * midpoint n i) =
      exp (2 * Real.pi * I * m * midpoint n 0) * exp (2 * Real.pi * I * (m / n)) ^ i := by
    intro i _
    rw [← Complex.exp_nat_mul, ← Complex.exp_add]
    congr 1
    unfold midpoint
    push_cast
    field_simp
    ring
  rw [Finset.sum_congr rfl e, ← Finset.mul_sum]
  have hz : exp (2 * Real.pi * I * (m / n)) ≠ 1 := by
    rw [Ne, Complex.exp_eq_one_iff]
    rintro ⟨k, hk⟩
    have hpi : (2 * Real.pi * I : ℂ) ≠ 0 := Complex.two_pi_I_ne_zero
    rw [mul_comm (k : ℂ)] at hk
    have := mul_left_cancel₀ hpi hk
    rw [div_eq_iff h0] at this
    apply hm
    refine ⟨k, ?_⟩
    have h2 : (m : ℂ) = ((n * k : ℤ) : ℂ) := by rw [this]; push_cast; ring
    exact_mod_cast h2
  have hp : exp (2 * Real.pi * I * (m / n)) ^ n = 1 := by
    rw [← Complex.exp_nat_mul, Complex.exp_eq_one_iff]
    exact ⟨m, by field_simp⟩
  have := geom_sum_eq hz n
  rw [this, hp, sub_self, zero_div, mul_zero]

/-- Position in a concatenation. -/
theorem flatten_getElem? {α : Type} (L : List (List α)) (i j : ℕ) (l : List α) (h : L[i]? = some l) (hj : j < l.length) :
    L.flatten[((L.take i).map List.length).sum + j]? = l[j]? := by
  obtain ⟨hi, rfl⟩ := List.getElem?_eq_some_iff.1 h
  have e : L.flatten = (L.take i).flatten ++ (L[i] ++ (L.drop (i + 1)).flatten) := by
    conv_lhs => rw [← List.take_append_drop i L, List.drop_eq_getElem_cons hi]
    rw [List.flatten_append, List.flatten_cons]
  rw [e, List.getElem?_append_right (by rw [List.length_flatten]; omega), List.length_flatten, Nat.add_sub_cancel_left,
    List.getElem?_append_left hj]

theorem mainKPoint_eq_ok {a : ℝ} {k : String} {p : R2} : mainKPoint a k = .ok p ↔ namedKPoint a k = some p := by
  have e : (0.99 : ℝ) * Real.pi / a = 99 / 100 * (Real.pi / a) := by ring
  unfold mainKPoint namedKPoint
  rw [e]
  split_ifs with h1 h2 h3
  · subst h1; simp
  · subst h2; simp
  · subst h3; simp
  · split <;> simp_all

theorem bzResolutions_get {m : ℕ} {res : List ℤ} {i : ℕ} (hm : (bzResolutions m res).length = m) (hi : i < m) :
    (bzResolutions m res)[i]? = some (segmentSamples res i) := by
  unfold bzResolutions segmentSamples at *
  match res with
  | [] => simp [hi]
  | [r] => simp [hi]
  | r :: s :: t =>
    simp only at hm ⊢
    rw [List.getD_eq_getElem?_getD, List.getElem?_eq_getElem (by omega)]
    rfl

theorem bzPath_eq_ok {ks : List String} {res : List ℤ} {a : ℝ} {path : List R2} : bzPath ks res a = .ok path ↔
    a ≠ 0 ∧ 1 < ks.length ∧ (bzResolutions (ks.length - 1) res).length = ks.length - 1 ∧
    ∃ segs : List (List R2), segs.flatten = path ∧
      List.Forall₂ (fun i s => ∃ k1 k2 p q, ks[i]? = some k1 ∧ ks[i + 1]? = some k2 ∧ namedKPoint a k1 = some p ∧
        namedKPoint a k2 = some q ∧ s = (List.range (segmentSamples res i).toNat).map fun j : ℕ =>
          (p.1 + (q.1 - p.1) * j / (segmentSamples res i : ℤ), p.2 + (q.2 - p.2) * j / (segmentSamples res i : ℤ)))
        (List.range (ks.length - 1)) segs := by
  unfold bzPath
  simp only [bind_eq_ok, pyCheck_eq_ok, pure, Except.pure, Except.ok.injEq, mapM_eq_ok, bzSegment, pyGet_eq_ok,
    mainKPoint_eq_ok]
  constructor
  · rintro ⟨_, ha, _, hk, _, hr, segs, hs, rfl⟩
    refine ⟨ha, hk, hr, segs, rfl, ?_⟩
    rw [hr] at hs
    refine List.Forall₂.imp ?_ ((List.forall₂_and_left (p := fun i => i < ks.length - 1) _ _).2 ⟨?_, hs⟩)
    · rintro i s ⟨hi, k1, h1, k2, h2, r, h3, p, hp, q, hq, rfl⟩
      rw [bzResolutions_get hr hi, Option.some.injEq] at h3
      subst h3
      exact ⟨k1, k2, p, q, h1, h2, hp, hq, rfl⟩
    · intro i hi; exact List.mem_range.1 hi
  · rintro ⟨ha, hk, hr, segs, rfl, hs⟩
    refine ⟨(), ha, (), hk, (), hr, segs, ?_, rfl⟩
    rw [hr]
    refine List.Forall₂.imp ?_ ((List.forall₂_and_left (p := fun i => i < ks.length - 1) _ _).2 ⟨?_, hs⟩)
    · rintro i s ⟨hi, k1, k2, p, q, h1, h2, hp, hq, rfl⟩
      exact ⟨k1, h1, k2, h2, _, bzResolutions_get hr hi, p, hp, q, hq, rfl⟩
    · intro i hi; exact List.mem_range.1 hi

end Khepri
