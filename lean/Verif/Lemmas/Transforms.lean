import Verif.Spec.Transforms
import Verif.Lemmas.Py
import Mathlib.Algebra.BigOperators.Fin
import Mathlib.Analysis.SpecialFunctions.Complex.Circle

set_option linter.unusedSectionVars false

/-! # Lemmas on `fourier2real_fft` and `fourier2direct2` -/

namespace Khepri

open Complex

/-- The factor of order `m` at position `k` of `T`. -/
noncomputable def turn (T : ℕ) (k : ℕ) (m : ℤ) : ℂ := exp (2 * Real.pi * I * (k * m / T))

theorem turn_congr {T : ℕ} (hT : T ≠ 0) (k : ℕ) {m n : ℤ} (h : ∃ z : ℤ, m = n + z * T) : turn T k m = turn T k n := by
  obtain ⟨z, rfl⟩ := h
  unfold turn
  rw [Complex.exp_eq_exp_iff_exists_int]
  refine ⟨k * z, ?_⟩
  have : (T : ℂ) ≠ 0 := by exact_mod_cast hT
  push_cast
  field_simp

/-- Reading an array rolled by `h` is reading orders from `-h` on. -/
theorem sum_rolled {T : ℕ} (h k : ℕ) (g : ℕ → ℂ) :
    ∑ u ∈ Finset.range T, g ((u + h) % T) * turn T k u = ∑ u ∈ Finset.range T, g u * turn T k ((u : ℤ) - h) := by
  rcases Nat.eq_zero_or_pos T with rfl | hT
  · simp
  have hm : h % T < T := Nat.mod_lt _ hT
  refine Finset.sum_nbij' (fun u => (u + h) % T) (fun u => (u + (T - h % T)) % T) ?_ ?_ ?_ ?_ ?_
  · intro u _
    exact Finset.mem_range.2 (Nat.mod_lt _ hT)
  · intro u _
    exact Finset.mem_range.2 (Nat.mod_lt _ hT)
  · intro u hu
    have hu := Finset.mem_range.1 hu
    show ((u + h) % T + (T - h % T)) % T = u
    rw [Nat.mod_add_mod, Nat.add_assoc]
    have e : h + (T - h % T) = T * (h / T + 1) := by
      have := Nat.div_add_mod h T
      rw [Nat.mul_add, Nat.mul_one]
      omega
    rw [e, Nat.add_mul_mod_self_left, Nat.mod_eq_of_lt hu]
  · intro u hu
    have hu := Finset.mem_range.1 hu
    show ((u + (T - h % T)) % T + h) % T = u
    rw [Nat.mod_add_mod, Nat.add_assoc]
    have e : T - h % T + h = T * (h / T + 1) := by
      have := Nat.div_add_mod h T
      rw [Nat.mul_add, Nat.mul_one]
      omega
    rw [e, Nat.add_mul_mod_self_left, Nat.mod_eq_of_lt hu]
  · intro u hu
    show _ = _ * turn T k ((((u + h) % T : ℕ) : ℤ) - h)
    congr 1
    refine turn_congr hT.ne' k ⟨((u + h) / T : ℕ), ?_⟩
    have := Nat.div_add_mod (u + h) T
    zify at this
    push_cast
    linarith

/-- A sum over a padded axis is the sum over what was padded. -/
theorem sum_padded {p b c T : ℕ} (hT : b + p + c = T) (g : ℕ → ℂ) (F : Fin p → ℂ) (h1 : ∀ m : Fin p, g (b + m) = F m)
    (h0 : ∀ u, (u < b ∨ b + p ≤ u) → g u = 0) : ∑ u ∈ Finset.range T, g u = ∑ m, F m := by
  subst hT
  rw [Finset.sum_range_add, Finset.sum_range_add]
  rw [Finset.sum_eq_zero (s := Finset.range b) fun u hu => h0 u (Or.inl (Finset.mem_range.1 hu)),
    Finset.sum_eq_zero (s := Finset.range c) fun u _ => h0 _ (Or.inr (by omega)), zero_add, add_zero,
    Finset.sum_range]
  exact Finset.sum_congr rfl fun m _ => h1 m

theorem exp_turns (T k l u v : ℕ) :
    exp (2 * Real.pi * I * (k * u / T + l * v / T)) = turn T k u * turn T l v := by
  unfold turn
  rw [← Complex.exp_add]
  congr 1
  push_cast
  ring

/-- The inverse transform of a padded square array. -/
theorem ifft2_padded {p : ℕ} (f : Fin p → Fin p → ℂ) (b r l : ℕ) :
    ifft2At (b + p + b) (b + p + b) (ifftshiftAt (b + p + b) (b + p + b) (padAt ⟨p, p, f⟩ b)) r l
      = (∑ m : Fin p, ∑ n : Fin p, f m n * (turn (b + p + b) r ((m : ℤ) - (p : ℤ) / 2)
          * turn (b + p + b) l ((n : ℤ) - (p : ℤ) / 2))) / ((b + p + b : ℕ) * (b + p + b : ℕ)) := by
  generalize hT : b + p + b = T
  unfold ifft2At
  congr 1
  have step : ∀ u v : ℕ, ifftshiftAt T T (padAt ⟨p, p, f⟩ b) u v * exp (2 * Real.pi * I * (r * u / T + l * v / T))
      = padAt ⟨p, p, f⟩ b ((u + T / 2) % T) ((v + T / 2) % T) * turn T l v * turn T r u := by
    intro u v
    rw [exp_turns]
    unfold ifftshiftAt
    ring
  simp only [step, ← Finset.sum_mul]
  rw [sum_rolled (T / 2) r fun u => ∑ v ∈ Finset.range T, padAt ⟨p, p, f⟩ b u ((v + T / 2) % T) * turn T l v]
  have hz : ((T / 2 : ℕ) : ℤ) = b + (p : ℤ) / 2 := by omega
  refine sum_padded hT _ _ ?_ ?_
  · intro m
    rw [sum_rolled (T / 2) l fun v => padAt ⟨p, p, f⟩ b (b + m) v, Finset.sum_mul]
    refine sum_padded hT _ _ ?_ ?_
    · intro n
      have hp : padAt ⟨p, p, f⟩ b (b + m) (b + n) = f m n := by
        unfold padAt
        rw [dif_pos (by simp)]
        simp
      rw [hp, hz]
      have e1 : ∀ x : ℕ, ((b + x : ℕ) : ℤ) - (b + (p : ℤ) / 2) = (x : ℤ) - (p : ℤ) / 2 := by
        intro x; push_cast; ring
      rw [e1, e1]
      ring
    · intro v hv
      have hp : padAt ⟨p, p, f⟩ b (b + m) v = 0 := by
        unfold padAt
        rw [dif_neg (by simp only; omega)]
      rw [hp]
      ring
  · intro u hu
    have hp : ∀ v, padAt ⟨p, p, f⟩ b u v = 0 := by
      intro v
      unfold padAt
      rw [dif_neg (by simp only; omega)]
    simp only [hp, zero_mul, Finset.sum_const_zero]

theorem zip_sum (n m : ℕ) (f kx ky : Fin n → Fin m → ℂ) (x y : ℝ) :
    ((((List.finRange n) ×ˢ (List.finRange m)).map fun p => f p.1 p.2).zip
      ((((List.finRange n) ×ˢ (List.finRange m)).map fun p => kx p.1 p.2).zip
        (((List.finRange n) ×ˢ (List.finRange m)).map fun p => ky p.1 p.2))).map
      (fun g => g.1 * exp (I * (g.2.1 * x + g.2.2 * y)))
    = ((List.finRange n) ×ˢ (List.finRange m)).map fun p =>
        f p.1 p.2 * exp (I * (kx p.1 p.2 * x + ky p.1 p.2 * y)) := by
  rw [List.zip_map', List.zip_map', List.map_map]
  rfl

theorem sum_product_list {n m : ℕ} (F : Fin n → Fin m → ℂ) :
    (((List.finRange n) ×ˢ (List.finRange m)).map fun p => F p.1 p.2).sum = ∑ i, ∑ j, F i j := by
  rw [Fin.sum_univ_def]
  generalize List.finRange n = l
  induction l with
  | nil => rfl
  | cons a l ih =>
    rw [List.product_cons, List.map_append, List.sum_append, ih, List.map_cons, List.sum_cons, List.map_map,
      Fin.sum_univ_def]
    rfl

theorem fourier2direct2_ok (ff kx ky : NdArr) (a : ℝ) (T : ℕ × ℕ) (extent : Option (ℝ × ℝ × ℝ × ℝ))
    (h1 : ky.flat.length = kx.flat.length) (h2 : ff.T.flat.length = kx.flat.length) :
    fourier2direct2 ff kx ky a T extent = .ok ⟨T.1, T.2, fun i j =>
      ((ff.T.flat.zip (kx.flat.zip ky.flat)).map fun g => g.1 *
        exp (I * (g.2.1 * linspaceAt (extent.getD (0, a, 0, a)).1 (extent.getD (0, a, 0, a)).2.1 T.1 i
          + g.2.2 * linspaceAt (extent.getD (0, a, 0, a)).2.2.1 (extent.getD (0, a, 0, a)).2.2.2 T.2 j))).sum⟩ := by
  unfold fourier2direct2
  dsimp only
  rw [pyCheck_ok (by rw [h1]), ok_bind, pyCheck_ok h2, ok_bind]
  rfl

end Khepri
