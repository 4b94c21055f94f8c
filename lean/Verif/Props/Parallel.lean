import Verif.Lemmas.Parallel
import Mathlib.RingTheory.RootsOfUnity.Complex
import Mathlib.Algebra.Field.GeomSum

/-!
# C57, C66: parallel Fourier sums
-/

namespace Khepri

open Complex

/-! ## C57 -/

/-- **C57.** Whatever the schedule, once every iteration of `dft` is over the result is the Fourier sum of the samples
taken every `a / len(field)` along both axes. -/
theorem C57_dft {N : ℕ} {f : Arr2} {kx ky : Fin N → ℂ} {a : ℝ} {sched : List (Fin N)} {m : Machine (Fin N)}
    (h : dft f kx ky a sched = .ok m) (hf : m.Finished) (i : Fin N) :
    m.shared i = ∑ k, ∑ l, f.val k l *
      exp (-(I * (kx i * ((k : ℕ) * (a / f.nx : ℝ) : ℝ) + ky i * ((l : ℕ) * (a / f.nx : ℝ) : ℝ)))) := by
  unfold dft at h
  simp only [bind_eq_ok, pyCheck_eq_ok, pure, Except.pure, Except.ok.injEq] at h
  obtain ⟨_, _, rfl⟩ := h
  refine (finished_shared (progs := dftProg f kx ky a) (fun i => dftRows_own _ _ _ _ _) hf i).trans
    ((sums_val (dftRows_sums _ _ _ _ _ _ _)).trans ?_)
  refine Finset.sum_congr rfl fun k _ => Finset.sum_congr rfl fun l _ => ?_
  rw [one_mul, one_mul, ← Complex.exp_nat_mul, ← Complex.exp_nat_mul, mul_assoc, ← Complex.exp_add]
  congr 2
  push_cast
  ring

/-- **C57.** `dft` raises only for a field without rows; a schedule is long enough exactly when it gives every iteration
3 turns per sample, so a fair one always is. -/
theorem C57_dft_finishes {N : ℕ} (f : Arr2) (kx ky : Fin N → ℂ) (a : ℝ) (sched : List (Fin N)) :
    ((∃ m, dft f kx ky a sched = .ok m) ↔ f.nx ≠ 0) ∧
    ∀ m, dft f kx ky a sched = .ok m → (m.Finished ↔ ∀ i, 3 * (f.nx * f.ny) ≤ sched.count i) := by
  constructor
  · unfold dft
    simp only [bind_eq_ok, pyCheck_eq_ok, pure, Except.pure, Except.ok.injEq]
    exact ⟨fun ⟨_, _, h, _⟩ => h, fun h => ⟨_, (), h, rfl⟩⟩
  · intro m h
    unfold dft at h
    simp only [bind_eq_ok, pyCheck_eq_ok, pure, Except.pure, Except.ok.injEq] at h
    obtain ⟨_, _, rfl⟩ := h
    rw [finished_iff]
    refine forall_congr' fun i => ?_
    have : (dftProg f kx ky a i).length = 3 * (f.nx * f.ny) := by
      simp only [dftProg, dftRows_length, Arr2.rows, List.map_ofFn, Function.comp_def, List.length_ofFn, List.ofFn_const,
        List.sum_replicate, smul_eq_mul]
    rw [this]

/-- **C57.** Whatever the schedule, `slow_dft` ends with the Fourier sum over its points. -/
theorem C57_slow_dft {N M : ℕ} (f : Fin M → ℂ) (x y : Fin M → ℝ) (kx ky : Fin N → ℂ) (sched : List (Fin N)) :
    ((slowDft f x y kx ky sched).Finished ↔ ∀ i, 3 * M ≤ sched.count i) ∧
    ((slowDft f x y kx ky sched).Finished →
      ∀ i, (slowDft f x y kx ky sched).shared i = ∑ k, f k * exp (-(I * (kx i * x k + ky i * y k)))) := by
  constructor
  · unfold slowDft
    rw [finished_iff]
    refine forall_congr' fun i => ?_
    have : (slowDftProg f x y kx ky i).length = 3 * M := by
      simp [slowDftProg, List.length_flatMap, augAdd, mul_comm]
    rw [this]
  · intro hf i
    unfold slowDft at hf ⊢
    refine (finished_shared (progs := slowDftProg f x y kx ky) (fun i => flatMap_own _ _ _) hf i).trans
      ((sums_val (flatMap_sums _ _ _)).trans ?_)
    rw [← List.sum_ofFn, List.ofFn_eq_map]
    simp only [neg_mul]

/-- Waves of different integer wave numbers are orthogonal on `n` equally spaced samples. -/
theorem sample_sum {n : ℕ} (hn : n ≠ 0) (m : ℤ) :
    ∑ k : Fin n, exp (2 * Real.pi * I * (m * (k : ℕ) / n)) = if (n : ℤ) ∣ m then (n : ℂ) else 0 := by
  have h0 : (n : ℂ) ≠ 0 := by exact_mod_cast hn
  have e : ∀ k : ℕ, exp (2 * Real.pi * I * (m * (k : ℕ) / n)) = exp (2 * Real.pi * I * (m / n)) ^ k := by
    intro k
    rw [← Complex.exp_nat_mul]
    congr 1
    ring
  simp only [e]
  rw [Fin.sum_univ_eq_sum_range (fun k => exp (2 * Real.pi * I * (m / n)) ^ k)]
  split_ifs with hd
  · obtain ⟨c, rfl⟩ := hd
    have : exp (2 * Real.pi * I * (((n : ℤ) * c : ℤ) / n)) = 1 := by
      rw [Complex.exp_eq_one_iff]
      exact ⟨c, by push_cast; field_simp⟩
    simp only [this, one_pow, Finset.sum_const, Finset.card_range, nsmul_eq_mul, mul_one]
  · have hz : exp (2 * Real.pi * I * (m / n)) ≠ 1 := by
      rw [Ne, Complex.exp_eq_one_iff]
      rintro ⟨k, hk⟩
      have hpi : (2 * Real.pi * I : ℂ) ≠ 0 := Complex.two_pi_I_ne_zero
      rw [mul_comm (k : ℂ)] at hk
      have := mul_left_cancel₀ hpi hk
      rw [div_eq_iff h0] at this
      apply hd
      refine ⟨k, ?_⟩
      have h2 : (m : ℂ) = ((n * k : ℤ) : ℂ) := by rw [this]; push_cast; ring
      exact_mod_cast h2
    have hp : exp (2 * Real.pi * I * (m / n)) ^ n = 1 := by
      rw [← Complex.exp_nat_mul, Complex.exp_eq_one_iff]
      exact ⟨m, by field_simp⟩
    rw [geom_sum_eq hz n, hp, sub_self, zero_div]

/-- **C57.** `dft` undoes `idft`: sampled on `n x n` points of the cell, the field `idft` returns for amplitudes `F` of
orders that differ modulo `n` is sent back to `n² F`, for every Bloch vector and schedule. -/
theorem C57_roundtrip {N n : ℕ} (hn : n ≠ 0) {a : ℝ} (ha : a ≠ 0) (F : Fin N → ℂ) (q1 q2 : ℝ) (mx my : Fin N → ℤ)
    (hm : ∀ i j, (n : ℤ) ∣ mx i - mx j → (n : ℤ) ∣ my i - my j → i = j) {sched : List (Fin N)}
    (hs : ∀ i, 3 * (n * n) ≤ sched.count i) :
    ∃ m, dft ⟨n, n, fun k l => idft F (fun i => (q1 + 2 * Real.pi * mx i / a : ℝ))
        (fun i => (q2 + 2 * Real.pi * my i / a : ℝ)) (k * (a / n)) (l * (a / n))⟩
        (fun i => (q1 + 2 * Real.pi * mx i / a : ℝ)) (fun i => (q2 + 2 * Real.pi * my i / a : ℝ)) a sched = .ok m ∧
      ∀ i, m.shared i = n ^ 2 * F i := by
  obtain ⟨h1, h2⟩ := C57_dft_finishes ⟨n, n, fun k l => idft F (fun i => (q1 + 2 * Real.pi * mx i / a : ℝ))
        (fun i => (q2 + 2 * Real.pi * my i / a : ℝ)) (k * (a / n)) (l * (a / n))⟩
        (fun i => (q1 + 2 * Real.pi * mx i / a : ℝ)) (fun i => (q2 + 2 * Real.pi * my i / a : ℝ)) a sched
  obtain ⟨m, hmk⟩ := h1.2 hn
  refine ⟨m, hmk, fun i => ?_⟩
  rw [C57_dft hmk ((h2 m hmk).2 hs) i]
  have hn0 : (n : ℂ) ≠ 0 := by exact_mod_cast hn
  have ha0 : (a : ℂ) ≠ 0 := by exact_mod_cast ha
  simp only [idft, Finset.sum_mul]
  have e : ∀ (k l : Fin n) (j : Fin N),
      F j * exp (I * (((q1 + 2 * Real.pi * mx j / a : ℝ) : ℂ) * ((k : ℕ) * (a / n) : ℝ) +
        ((q2 + 2 * Real.pi * my j / a : ℝ) : ℂ) * ((l : ℕ) * (a / n) : ℝ))) *
      exp (-(I * (((q1 + 2 * Real.pi * mx i / a : ℝ) : ℂ) * ((k : ℕ) * (a / n : ℝ) : ℝ) +
        ((q2 + 2 * Real.pi * my i / a : ℝ) : ℂ) * ((l : ℕ) * (a / n : ℝ) : ℝ)))) =
      F j * (exp (2 * Real.pi * I * (((mx j - mx i : ℤ) : ℂ) * (k : ℕ) / n)) *
        exp (2 * Real.pi * I * (((my j - my i : ℤ) : ℂ) * (l : ℕ) / n))) := by
    intro k l j
    rw [mul_assoc, ← Complex.exp_add, ← Complex.exp_add]
    congr 2
    push_cast
    field_simp
    ring
  simp only [e]
  have swap : ∑ k : Fin n, ∑ l : Fin n, ∑ j : Fin N,
      F j * (exp (2 * Real.pi * I * (((mx j - mx i : ℤ) : ℂ) * (k : ℕ) / n)) *
        exp (2 * Real.pi * I * (((my j - my i : ℤ) : ℂ) * (l : ℕ) / n))) =
      ∑ j : Fin N, F j * ((∑ k : Fin n, exp (2 * Real.pi * I * (((mx j - mx i : ℤ) : ℂ) * (k : ℕ) / n))) *
        ∑ l : Fin n, exp (2 * Real.pi * I * (((my j - my i : ℤ) : ℂ) * (l : ℕ) / n))) := by
    rw [Finset.sum_congr rfl fun k _ => Finset.sum_comm, Finset.sum_comm]
    refine Finset.sum_congr rfl fun j _ => ?_
    rw [Finset.sum_mul_sum, Finset.mul_sum]
    refine Finset.sum_congr rfl fun k _ => ?_
    rw [Finset.mul_sum]
  rw [swap, Finset.sum_eq_single i]
  · rw [sample_sum hn, sample_sum hn]
    simp
    ring
  · intro j _ hji
    rw [sample_sum hn, sample_sum hn]
    by_cases hx : (n : ℤ) ∣ mx j - mx i
    · by_cases hy : (n : ℤ) ∣ my j - my i
      · exact absurd (hm j i hx hy) hji
      · simp [hy]
    · simp [hx]
  · intro h; exact absurd (Finset.mem_univ i) h

/-- Non-vacuity of C57: three orders on 4 x 4 samples, two different schedules. -/
example : ∃ (mx my : Fin 3 → ℤ), (∀ i j, ((4 : ℕ) : ℤ) ∣ mx i - mx j → ((4 : ℕ) : ℤ) ∣ my i - my j → i = j) ∧
    (∀ i, 3 * (4 * 4) ≤ ((List.replicate 48 [(0 : Fin 3), 1, 2]).flatten).count i) ∧
    ∀ i, 3 * (4 * 4) ≤ (List.replicate 48 (2 : Fin 3) ++ List.replicate 48 0 ++ List.replicate 48 1).count i :=
  ⟨![-1, 0, 1], ![0, 0, 0], by decide, by decide, by decide⟩

/-! ## C66 -/

/-- **C66 (partial).** `idft2` adds up every order exactly once however the orders are shared between threads, and
returns the Fourier series at the points `(xmin + k (xmax - xmin) / nx, ymin + l (ymax - ymin) / ny)`.  What is missing:
these are not the points it was given (see `C66_counterexample`). -/
theorem C66_partial {N : ℕ} {f kx ky : Fin N → ℂ} {x y : RArr2} {chunks : List (List (Fin N))} {r : List (List ℂ)}
    (h : idft2 f kx ky x y chunks = .ok r) (hc : chunks.flatten.Perm (List.finRange N)) :
    ∃ xmin xmax ymin ymax : ℝ,
      IsLeast {v | ∃ k l, x.val k l = v} xmin ∧ IsGreatest {v | ∃ k l, x.val k l = v} xmax ∧
      IsLeast {v | ∃ k l, y.val k l = v} ymin ∧ IsGreatest {v | ∃ k l, y.val k l = v} ymax ∧
      ∀ k l, k < x.nx → l < x.ny → (r[k]?).bind (·[l]?) =
        some (idft f kx ky (xmin + k * ((xmax - xmin) / x.nx)) (ymin + l * ((ymax - ymin) / x.ny))) := by
  obtain ⟨_, _, xmin, xmax, ymin, ymax, a1, a2, a3, a4, rfl⟩ := idft2_eq_ok.1 h
  refine ⟨xmin, xmax, ymin, ymax, a1, a2, a3, a4, fun k l hk hl => ?_⟩
  rw [(hc.map _).sum_eq, ← List.ofFn_eq_map, List.sum_ofFn]
  unfold tableOf
  rw [List.getElem?_ofFn, dif_pos hk, Option.bind_some, List.getElem?_ofFn, dif_pos hl, Option.some.injEq,
    Finset.sum_apply, Finset.sum_apply, idft]
  refine Finset.sum_congr rfl fun i _ => ?_
  rw [← Complex.exp_nat_mul, ← Complex.exp_nat_mul, ← Complex.exp_add, ← Complex.exp_add, mul_assoc, ← Complex.exp_add]
  congr 2
  push_cast
  ring

/-- **C66.** When `idft2` answers. -/
theorem C66_defined {N : ℕ} (f kx ky : Fin N → ℂ) (x y : RArr2) (chunks : List (List (Fin N))) :
    (∃ r, idft2 f kx ky x y chunks = .ok r) ↔ x.nx = y.nx ∧ x.ny = y.ny ∧ x.nx ≠ 0 ∧ x.ny ≠ 0 := by
  constructor
  · rintro ⟨r, h⟩
    obtain ⟨h1, h2, xmin, _, _, _, ⟨⟨k, l, _⟩, _⟩, _⟩ := idft2_eq_ok.1 h
    exact ⟨h1, h2, fun e => (Fin.cast e k).elim0, fun e => (Fin.cast e l).elim0⟩
  · rintro ⟨h1, h2, h3, h4⟩
    have ne : ∀ z : RArr2, z.nx ≠ 0 → z.ny ≠ 0 → ∃ a b, npMin z.elems = .ok a ∧ npMax z.elems = .ok b := by
      intro z hx hy
      have : z.val ⟨0, Nat.pos_of_ne_zero hx⟩ ⟨0, Nat.pos_of_ne_zero hy⟩ ∈ z.elems := mem_elems.2 ⟨_, _, rfl⟩
      cases e : z.elems with
      | nil => rw [e] at this; simp at this
      | cons a t => exact ⟨_, _, rfl, rfl⟩
    obtain ⟨a, b, ha, hb⟩ := ne x h3 h4
    obtain ⟨c, d, hc, hd⟩ := ne y (h1 ▸ h3) (h2 ▸ h4)
    exact ⟨_, idft2_eq_ok.2 ⟨h1, h2, a, b, c, d, npMin_eq_ok.1 ha, npMax_eq_ok.1 hb, npMin_eq_ok.1 hc,
      npMax_eq_ok.1 hd, rfl⟩⟩

/-- **C66, counterexample.** On every grid whose first coordinate is not constant, some plane wave comes out wrong at
some point of the grid. -/
theorem C66_counterexample {x y : RArr2} (h1 : x.nx = y.nx) (h2 : x.ny = y.ny) {k0 k1 : Fin x.nx} {l0 l1 : Fin x.ny}
    (hne : x.val k0 l0 ≠ x.val k1 l1) : ∃ (kx : Fin 1 → ℂ) (r : List (List ℂ)) (k : Fin x.nx) (l : Fin x.ny),
    idft2 (fun _ => 1) kx (fun _ => 0) x y [[0]] = .ok r ∧
      (r[(k : ℕ)]?).bind (·[(l : ℕ)]?) ≠
        some (idft (fun _ => 1) kx (fun _ => 0) (x.val k l) (y.val (Fin.cast h1 k) (Fin.cast h2 l))) := by
  have hx : x.nx ≠ 0 := fun e => (Fin.cast e k0).elim0
  have hy : x.ny ≠ 0 := fun e => (Fin.cast e l0).elim0
  obtain ⟨r0, hr0⟩ := (C66_defined (N := 1) (fun _ => 1) (fun _ => 0) (fun _ => 0) x y [[0]]).2 ⟨h1, h2, hx, hy⟩
  obtain ⟨_, _, xmin, xmax, ymin, ymax, a1, a2, a3, a4, _⟩ := idft2_eq_ok.1 hr0
  obtain ⟨⟨kM, lM, hM⟩, hub⟩ := a2
  have hlt : xmin < xmax := by
    rcases lt_or_gt_of_ne hne with h | h
    · exact ((a1.2 ⟨k0, l0, rfl⟩).trans_lt h).trans_le (hub ⟨k1, l1, rfl⟩)
    · exact ((a1.2 ⟨k1, l1, rfl⟩).trans_lt h).trans_le (hub ⟨k0, l0, rfl⟩)
  have hn : (0 : ℝ) < x.nx := by exact_mod_cast Nat.pos_of_ne_zero hx
  have hk : ((kM : ℕ) : ℝ) + 1 ≤ x.nx := by exact_mod_cast kM.2
  have hd : xmin + (kM : ℕ) * ((xmax - xmin) / x.nx) < xmax := by
    have : (kM : ℕ) * ((xmax - xmin) / x.nx) < xmax - xmin := by
      rw [← mul_div_assoc, div_lt_iff₀ hn]
      nlinarith
    linarith
  set d : ℝ := xmax - (xmin + (kM : ℕ) * ((xmax - xmin) / x.nx)) with hdd
  have hd0 : d ≠ 0 := by rw [hdd]; intro e; linarith
  obtain ⟨r, hr⟩ := (C66_defined (N := 1) (fun _ => 1) (fun _ => ((1 / d : ℝ) : ℂ)) (fun _ => 0) x y [[0]]).2
    ⟨h1, h2, hx, hy⟩
  refine ⟨_, r, kM, lM, hr, ?_⟩
  obtain ⟨xmin', xmax', ymin', ymax', b1, b2, -, -, hv⟩ := C66_partial hr (by decide)
  obtain rfl := b1.unique a1
  obtain rfl := b2.unique ⟨⟨kM, lM, hM⟩, hub⟩
  rw [hv _ _ kM.2 lM.2, hM, Ne, Option.some.injEq]
  simp only [idft, Finset.univ_unique, Finset.sum_singleton, one_mul, zero_mul, add_zero]
  rw [Complex.exp_eq_exp_iff_exists_int]
  rintro ⟨n, hnn⟩
  have e : (1 / d : ℝ) * (xmin' + (kM : ℕ) * ((xmax' - xmin') / x.nx)) = (1 / d : ℝ) * xmax' + n * (2 * Real.pi) := by
    have := congrArg Complex.im hnn
    simpa [Complex.mul_re, Complex.mul_im] using this
  have e2 : (1 / d) * d = -(n * (2 * Real.pi)) := by rw [hdd] at *; linarith
  rw [one_div_mul_cancel hd0] at e2
  have hpi := Real.two_le_pi
  rcases lt_trichotomy n 0 with hneg | h0 | hpos
  · have : (n : ℝ) ≤ -1 := by exact_mod_cast Int.le_sub_one_of_lt hneg
    nlinarith
  · rw [h0] at e2; simp at e2
  · have : (1 : ℝ) ≤ n := by exact_mod_cast hpos
    nlinarith

/-- Non-vacuity of C66: a 2 x 2 grid. -/
example : (∃ r, idft2 (N := 2) (fun _ => 1) (fun _ => 3) (fun _ => 0) ⟨2, 2, fun k _ => (k : ℕ)⟩ ⟨2, 2, fun _ l => (l : ℕ)⟩
    [[1], [0]] = .ok r) ∧ ([[1], [0]] : List (List (Fin 2))).flatten.Perm (List.finRange 2) :=
  ⟨(C66_defined _ _ _ _ _ _).2 ⟨rfl, rfl, by norm_num, by norm_num⟩, by decide⟩

end Khepri
