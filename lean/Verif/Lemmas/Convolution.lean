import Verif.Spec.Fourier
import Verif.Lemmas.Expansion

set_option linter.unusedSectionVars false

/-! # Lemmas on convolution matrices -/

namespace Khepri

open Complex Matrix

/-- The plane wave of integer order `m` on a grid of `n` points. -/
noncomputable def wave (n : ℕ) (m : ℤ) (x : ℕ) : ℂ := exp (-(2 * Real.pi * I * (m * x / n)))

theorem wave_add (n : ℕ) (m m' : ℤ) (x : ℕ) : wave n (m + m') x = wave n m x * wave n m' x := by
  rw [wave, wave, wave, ← exp_add]; congr 1; push_cast; ring

theorem wave_zero (n x : ℕ) : wave n 0 x = 1 := by simp [wave]

theorem wave_neg (n : ℕ) (m : ℤ) (x : ℕ) : wave n (-m) x = star (wave n m x) := by
  rw [wave, wave, Complex.star_def, ← exp_conj]
  congr 1
  simp [map_mul, map_neg, map_div₀, map_ofNat]
  ring

theorem wave_period {n : ℕ} (hn : n ≠ 0) (m j : ℤ) (x : ℕ) : wave n (m + j * n) x = wave n m x := by
  have : wave n (j * n) x = 1 := by
    rw [wave, exp_eq_one_iff]
    refine ⟨-(j * x), ?_⟩
    have : (n : ℂ) ≠ 0 := by exact_mod_cast hn
    push_cast
    field_simp
  rw [wave_add, this, mul_one]

theorem wave_pow (n : ℕ) (m : ℤ) (x : ℕ) : wave n m x = wave n m 1 ^ x := by
  rw [wave, wave, ← exp_nat_mul]; congr 1; push_cast; ring

theorem sum_wave {n : ℕ} (hn : n ≠ 0) (m : ℤ) (h : ¬ (n : ℤ) ∣ m) :
    ∑ x : Fin n, wave n m x = 0 := by
  have h1 : wave n m 1 ≠ 1 := by
    rw [wave, Ne, exp_eq_one_iff]
    rintro ⟨j, hj⟩
    apply h
    have hn' : (n : ℂ) ≠ 0 := by exact_mod_cast hn
    have h2 := two_pi_I_ne_zero
    refine ⟨-j, ?_⟩
    have : (m : ℂ) = n * (-j : ℤ) := by
      have e : -(2 * Real.pi * I * (m * (1 : ℕ) / n)) = -(m / n) * (2 * Real.pi * I) := by
        push_cast; ring
      rw [e] at hj
      have := mul_right_cancel₀ h2 hj
      push_cast
      field_simp at this
      linear_combination -this
    exact_mod_cast this
  have h3 : (∑ x : Fin n, wave n m x) * (wave n m 1 - 1) = 0 := by
    have e : ∑ x : Fin n, wave n m x = ∑ x ∈ Finset.range n, wave n m 1 ^ x := by
      rw [Finset.sum_range]
      exact Finset.sum_congr rfl fun x _ => wave_pow n m x
    rw [e, geom_sum_mul, ← wave_pow]
    have := wave_period hn 0 m 1
    have e2 : wave n m n = 1 := by
      rw [wave, exp_eq_one_iff]
      refine ⟨-m, ?_⟩
      have : (n : ℂ) ≠ 0 := by exact_mod_cast hn
      push_cast
      field_simp
    rw [e2, sub_self]
  exact (mul_eq_zero.1 h3).resolve_right (sub_ne_zero.2 h1)

theorem wave_mul_wave (nx ny : ℕ) (m n : ℤ) (x y : ℕ) :
    exp (-(2 * Real.pi * I * (m * x / nx + n * y / ny))) = wave nx m x * wave ny n y := by
  rw [wave, wave, ← exp_add]; congr 1; ring

theorem fourierCoef_eq (a : Arr2) (m n : ℤ) :
    fourierCoef a m n = (∑ x, ∑ y, a.val x y * (wave a.nx m x * wave a.ny n y)) / (a.nx * a.ny) := by
  simp only [fourierCoef, wave_mul_wave]

theorem fourierCoef_period (a : Arr2) (hx : a.nx ≠ 0) (hy : a.ny ≠ 0) (m n i j : ℤ) :
    fourierCoef a (m + i * a.nx) (n + j * a.ny) = fourierCoef a m n := by
  simp only [fourierCoef_eq, wave_period hx, wave_period hy]

/-- What the shifted and normalised FFT holds at position `n // 2 + d`. -/
theorem shifted_fft {a : Arr2} (hx : a.nx ≠ 0) (hy : a.ny ≠ 0) (i : Fin a.nx) (j : Fin a.ny) :
    (fftshift (fft2 a)).val i j / (a.nx * a.ny) =
      fourierCoef a ((i : ℤ) - (a.nx / 2 : ℕ)) ((j : ℤ) - (a.ny / 2 : ℕ)) := by
  have key : ∀ n : ℕ, n ≠ 0 → ∀ i : Fin n, ∃ t : ℤ,
      (((fftshiftSource i : Fin n) : ℕ) : ℤ) = (i : ℤ) - (n / 2 : ℕ) + t * n := by
    intro n hn i
    refine ⟨1 - ((i + (n - n / 2)) / n : ℕ), ?_⟩
    have h1 : ((fftshiftSource i : Fin n) : ℕ) = (i + (n - n / 2)) % n := rfl
    have h2 := Nat.div_add_mod (i + (n - n / 2)) n
    have h3 : n / 2 ≤ n := Nat.div_le_self _ _
    rw [h1]
    have h4 : (n : ℤ) * (((i + (n - n / 2)) / n : ℕ) : ℤ) + (((i + (n - n / 2)) % n : ℕ) : ℤ) =
        (i : ℤ) + ((n : ℤ) - (n / 2 : ℕ)) := by
      rw [← Nat.cast_sub h3]; exact_mod_cast h2
    linear_combination h4
  obtain ⟨t, ht⟩ := key a.nx hx i
  obtain ⟨s, hs⟩ := key a.ny hy j
  rw [← fourierCoef_period a hx hy _ _ t s, ← ht, ← hs]
  simp only [fftshift, fft2, fourierCoef]
  push_cast
  rfl

/-- Row/column difference read by `convolution_matrix`. -/
def diffAt (P : ℕ) (r c : ℕ) : ℤ × ℤ :=
  (((r % P : ℕ) : ℤ) - (c % P : ℕ), ((r / P : ℕ) : ℤ) - (c / P : ℕ))

theorem diffAt_bound {P Q r c : ℕ} (hr : r < P * Q) (hc : c < P * Q) :
    |(diffAt P r c).1| < P ∧ |(diffAt P r c).2| < Q := by
  have hP : 0 < P := by
    rcases Nat.eq_zero_or_pos P with rfl | h
    · simp at hr
    · exact h
  have h1 := Nat.mod_lt r hP
  have h2 := Nat.mod_lt c hP
  have h3 : r / P < Q := Nat.div_lt_of_lt_mul hr
  have h4 : c / P < Q := Nat.div_lt_of_lt_mul hc
  simp only [diffAt]
  generalize r % P = a at *
  generalize c % P = b at *
  generalize r / P = a' at *
  generalize c / P = b' at *
  rw [abs_lt, abs_lt]
  omega

theorem convolutionMatrix_ok {a : Arr2} {pw : ℕ × ℕ} (hx : 2 * pw.1 ≤ a.nx + 1)
    (hy : 2 * pw.2 ≤ a.ny + 1) (hx0 : a.nx ≠ 0) (hy0 : a.ny ≠ 0) :
    convolutionMatrix (pw.1 * pw.2) a pw = .ok (Matrix.of fun r c =>
      fourierCoef a (diffAt pw.1 r c).1 (diffAt pw.1 r c).2) := by
  unfold convolutionMatrix convolutionMatrixFourier
  rw [pyCheck_ok ⟨hx0, hy0⟩, ok_bind]
  refine bind_eq_ok.2 ⟨fun r c => fourierCoef a (diffAt pw.1 r c).1 (diffAt pw.1 r c).2, ?_, rfl⟩
  refine pyFinM_eq_ok.2 fun r => pyFinM_eq_ok.2 fun c => ?_
  obtain ⟨b1, b2⟩ := diffAt_bound r.2 c.2
  rw [abs_lt] at b1 b2
  simp only [diffAt] at b1 b2
  obtain ⟨i, hi⟩ : ∃ i : Fin a.nx, ((i : ℕ) : ℤ) = (a.nx / 2 : ℕ) +
      (((r : ℕ) % pw.1 : ℕ) - ((c : ℕ) % pw.1 : ℕ) : ℤ) := by
    generalize (r : ℕ) % pw.1 = u at *
    generalize (c : ℕ) % pw.1 = v at *
    exact ⟨⟨((a.nx / 2 : ℕ) + (u - v : ℤ)).toNat, by omega⟩, by simp only; omega⟩
  obtain ⟨j, hj⟩ : ∃ j : Fin a.ny, ((j : ℕ) : ℤ) = (a.ny / 2 : ℕ) +
      (((r : ℕ) / pw.1 : ℕ) - ((c : ℕ) / pw.1 : ℕ) : ℤ) := by
    generalize (r : ℕ) / pw.1 = u at *
    generalize (c : ℕ) / pw.1 = v at *
    exact ⟨⟨((a.ny / 2 : ℕ) + (u - v : ℤ)).toNat, by omega⟩, by simp only; omega⟩
  refine bind_eq_ok.2 ⟨i, npIndex_eq_ok.2 (Or.inl hi.symm), bind_eq_ok.2
    ⟨j, npIndex_eq_ok.2 (Or.inl hj.symm), ?_⟩⟩
  simp only [pure, Except.pure, Except.ok.injEq]
  have := shifted_fft hx0 hy0 i j
  have e1 : (i : ℤ) - (a.nx / 2 : ℕ) = (diffAt pw.1 r c).1 := by rw [hi]; simp only [diffAt]; ring
  have e2 : (j : ℤ) - (a.ny / 2 : ℕ) = (diffAt pw.1 r c).2 := by rw [hj]; simp only [diffAt]; ring
  rw [e1, e2] at this
  exact this

theorem convolutionMatrix_small {a : Arr2} {pw : ℕ × ℕ} (h1 : 0 < pw.1) (h2 : 0 < pw.2)
    (hx0 : a.nx ≠ 0) (hy0 : a.ny ≠ 0) (h : a.nx + 1 < 2 * pw.1 ∨ a.ny + 1 < 2 * pw.2) :
    convolutionMatrix (pw.1 * pw.2) a pw = .error .index := by
  unfold convolutionMatrix convolutionMatrixFourier
  rw [pyCheck_ok ⟨hx0, hy0⟩, ok_bind]
  have hN : 0 < pw.1 * pw.2 := Nat.mul_pos h1 h2
  -- every exception raised by an entry is an IndexError
  have herr : ∀ (F : Arr2) (r c : Fin (pw.1 * pw.2)) e,
      (do
        let i ← npIndex F.nx ((F.nx / 2 : ℕ) + (((r : ℕ) % pw.1 : ℕ) - ((c : ℕ) % pw.1 : ℕ) : ℤ))
        let j ← npIndex F.ny ((F.ny / 2 : ℕ) + (((r : ℕ) / pw.1 : ℕ) - ((c : ℕ) / pw.1 : ℕ) : ℤ))
        return F.val i j : Py ℂ) = .error e → e = .index := by
    intro F r c e he
    rcases hi : npIndex F.nx ((F.nx / 2 : ℕ) + (((r : ℕ) % pw.1 : ℕ) - ((c : ℕ) % pw.1 : ℕ) : ℤ)) with
      e' | i
    · rw [hi, error_bind, Except.error.injEq] at he
      rw [← he]; exact (npIndex_error.1 hi).1
    · rw [hi, ok_bind] at he
      rcases hj : npIndex F.ny ((F.ny / 2 : ℕ) + (((r : ℕ) / pw.1 : ℕ) - ((c : ℕ) / pw.1 : ℕ) : ℤ)) with
        e' | j
      · rw [hj, error_bind, Except.error.injEq] at he
        rw [← he]; exact (npIndex_error.1 hj).1
      · rw [hj, ok_bind] at he; simp [pure, Except.pure] at he
  -- some entry raises
  set F : Arr2 := ⟨(fftshift (fft2 a)).nx, (fftshift (fft2 a)).ny,
    fun i j => (fftshift (fft2 a)).val i j / (a.nx * a.ny)⟩ with hF
  have hlast : pw.1 * pw.2 - 1 < pw.1 * pw.2 := by omega
  have hm : (pw.1 * pw.2 - 1) % pw.1 = pw.1 - 1 := by
    obtain ⟨q, hq⟩ : ∃ q, pw.2 = q + 1 := ⟨pw.2 - 1, by omega⟩
    have : pw.1 * pw.2 - 1 = pw.1 * q + (pw.1 - 1) := by rw [hq, Nat.mul_succ]; omega
    rw [this, Nat.mul_add_mod, Nat.mod_eq_of_lt (by omega)]
  have hd : (pw.1 * pw.2 - 1) / pw.1 = pw.2 - 1 := by
    obtain ⟨q, hq⟩ : ∃ q, pw.2 = q + 1 := ⟨pw.2 - 1, by omega⟩
    have : pw.1 * pw.2 - 1 = pw.1 * q + (pw.1 - 1) := by rw [hq, Nat.mul_succ]; omega
    have e : (pw.1 - 1) / pw.1 = 0 := Nat.div_eq_of_lt (by omega)
    rw [this, Nat.mul_add_div h1, e, hq]; omega
  have hentry : ∃ e, (do
        let i ← npIndex F.nx ((F.nx / 2 : ℕ) + (((pw.1 * pw.2 - 1 : ℕ) % pw.1 : ℕ) - ((0 : ℕ) % pw.1 : ℕ) : ℤ))
        let j ← npIndex F.ny ((F.ny / 2 : ℕ) + (((pw.1 * pw.2 - 1 : ℕ) / pw.1 : ℕ) - ((0 : ℕ) / pw.1 : ℕ) : ℤ))
        return F.val i j : Py ℂ) = .error e := by
    rw [hm, hd, Nat.zero_mod, Nat.zero_div]
    have hnx : F.nx = a.nx := rfl
    have hny : F.ny = a.ny := rfl
    rcases hi : npIndex F.nx ((F.nx / 2 : ℕ) + ((pw.1 - 1 : ℕ) - ((0 : ℕ) : ℤ))) with e' | i
    · exact ⟨e', rfl⟩
    · rcases hj : npIndex F.ny ((F.ny / 2 : ℕ) + ((pw.2 - 1 : ℕ) - ((0 : ℕ) : ℤ))) with e' | j
      · exact ⟨e', by rw [ok_bind]; rfl⟩
      · exfalso
        have i2 := i.2
        have j2 := j.2
        rcases npIndex_eq_ok.1 hi with hi | hi <;> rcases npIndex_eq_ok.1 hj with hj | hj <;> omega
  obtain ⟨e, he⟩ := hentry
  obtain ⟨c', e', hc', hrow⟩ := pyFinM_error
    (f := fun c : Fin (pw.1 * pw.2) => (do
      let i ← npIndex F.nx ((F.nx / 2 : ℕ) + (((pw.1 * pw.2 - 1 : ℕ) % pw.1 : ℕ) - ((c : ℕ) % pw.1 : ℕ) : ℤ))
      let j ← npIndex F.ny ((F.ny / 2 : ℕ) + (((pw.1 * pw.2 - 1 : ℕ) / pw.1 : ℕ) - ((c : ℕ) / pw.1 : ℕ) : ℤ))
      return F.val i j : Py ℂ)) ⟨⟨0, hN⟩, e, he⟩
  obtain ⟨r'', e'', hr'', hall⟩ := pyFinM_error
    (f := fun r : Fin (pw.1 * pw.2) => pyFinM fun c : Fin (pw.1 * pw.2) => (do
      let i ← npIndex F.nx ((F.nx / 2 : ℕ) + (((r : ℕ) % pw.1 : ℕ) - ((c : ℕ) % pw.1 : ℕ) : ℤ))
      let j ← npIndex F.ny ((F.ny / 2 : ℕ) + (((r : ℕ) / pw.1 : ℕ) - ((c : ℕ) / pw.1 : ℕ) : ℤ))
      return F.val i j : Py ℂ)) ⟨⟨_, hlast⟩, e', hrow⟩
  have hex : ∃ c, ∃ e, (do
      let i ← npIndex F.nx ((F.nx / 2 : ℕ) + (((r'' : ℕ) % pw.1 : ℕ) - ((c : Fin (pw.1 * pw.2)) % pw.1 : ℕ) : ℤ))
      let j ← npIndex F.ny ((F.ny / 2 : ℕ) + (((r'' : ℕ) / pw.1 : ℕ) - ((c : ℕ) / pw.1 : ℕ) : ℤ))
      return F.val i j : Py ℂ) = .error e := by
    by_contra hcon
    push Not at hcon
    have : ∀ c : Fin (pw.1 * pw.2), ∃ z, (do
        let i ← npIndex F.nx ((F.nx / 2 : ℕ) + (((r'' : ℕ) % pw.1 : ℕ) - ((c : ℕ) % pw.1 : ℕ) : ℤ))
        let j ← npIndex F.ny ((F.ny / 2 : ℕ) + (((r'' : ℕ) / pw.1 : ℕ) - ((c : ℕ) / pw.1 : ℕ) : ℤ))
        return F.val i j : Py ℂ) = .ok z := by
      intro c
      match h : (do
        let i ← npIndex F.nx ((F.nx / 2 : ℕ) + (((r'' : ℕ) % pw.1 : ℕ) - ((c : ℕ) % pw.1 : ℕ) : ℤ))
        let j ← npIndex F.ny ((F.ny / 2 : ℕ) + (((r'' : ℕ) / pw.1 : ℕ) - ((c : ℕ) / pw.1 : ℕ) : ℤ))
        return F.val i j : Py ℂ) with
      | .ok z => exact ⟨z, rfl⟩
      | .error e => exact absurd h (hcon c e)
    choose z hz using this
    rw [pyFinM_eq_ok.2 hz] at hr''
    simp at hr''
  obtain ⟨c3, e3, hc3, hrow3⟩ := pyFinM_error hex
  have : e'' = .index := by
    have : e3 = e'' := by
      have := hrow3.symm.trans hr''
      exact Except.error.inj this
    rw [← this]; exact herr F r'' c3 e3 hc3
  rw [this] at hall
  show (do let rows ← pyFinM _; return Matrix.of rows : Py _) = _
  rw [hall, error_bind]

/-- Quadratic form of the matrix of Fourier coefficients (Parseval). -/
theorem fourier_quadratic (a : Arr2) {N : ℕ} (ord : Fin N → ℤ × ℤ) (v : Fin N → ℂ) :
    ∑ r, ∑ c, star (v r) * fourierCoef a ((ord r).1 - (ord c).1) ((ord r).2 - (ord c).2) * v c =
      (∑ x, ∑ y, a.val x y * ((‖∑ c, star (wave a.nx (ord c).1 x * wave a.ny (ord c).2 y) * v c‖ ^ 2 : ℝ) : ℂ)) /
        (a.nx * a.ny) := by
  have h1 : ∀ x y, ((‖∑ c, star (wave a.nx (ord c).1 x * wave a.ny (ord c).2 y) * v c‖ ^ 2 : ℝ) : ℂ) =
      ∑ r, ∑ c, star (v r) * (wave a.nx ((ord r).1 - (ord c).1) x * wave a.ny ((ord r).2 - (ord c).2) y) *
        v c := by
    intro x y
    set s := ∑ c, star (wave a.nx (ord c).1 x * wave a.ny (ord c).2 y) * v c with hs
    have : ((‖s‖ ^ 2 : ℝ) : ℂ) = star s * s := by
      rw [Complex.star_def, ← Complex.normSq_eq_conj_mul_self, Complex.sq_norm]
    rw [this, hs, star_sum, Finset.sum_mul_sum]
    refine Finset.sum_congr rfl fun r _ => Finset.sum_congr rfl fun c _ => ?_
    rw [sub_eq_add_neg, sub_eq_add_neg, wave_add, wave_add, wave_neg, wave_neg, star_mul, star_star,
      star_mul]
    ring
  simp only [h1, fourierCoef_eq]
  have h2 : ∀ r c, star (v r) * ((∑ x, ∑ y, a.val x y *
      (wave a.nx ((ord r).1 - (ord c).1) x * wave a.ny ((ord r).2 - (ord c).2) y)) /
        (a.nx * a.ny)) * v c =
      (∑ x, ∑ y, a.val x y * (star (v r) * (wave a.nx ((ord r).1 - (ord c).1) x *
        wave a.ny ((ord r).2 - (ord c).2) y) * v c)) / (a.nx * a.ny) := by
    intro r c
    rw [mul_div_assoc', div_mul_eq_mul_div, Finset.mul_sum, Finset.sum_mul]
    congr 1
    refine Finset.sum_congr rfl fun x _ => ?_
    rw [Finset.mul_sum, Finset.sum_mul]
    exact Finset.sum_congr rfl fun y _ => by ring
  simp only [h2, ← Finset.sum_div]
  congr 1
  simp only [Finset.mul_sum]
  rw [Finset.sum_congr rfl fun r _ => Finset.sum_comm, Finset.sum_comm]
  refine Finset.sum_congr rfl fun x _ => ?_
  rw [Finset.sum_congr rfl fun r _ => Finset.sum_comm, Finset.sum_comm]

theorem fourierCoef_const {nx ny : ℕ} (hx : nx ≠ 0) (hy : ny ≠ 0) (e : ℂ) (m n : ℤ)
    (hm : |m| < nx) (hn : |n| < ny) :
    fourierCoef ⟨nx, ny, fun _ _ => e⟩ m n = if m = 0 ∧ n = 0 then e else 0 := by
  have hx' : (nx : ℂ) ≠ 0 := by exact_mod_cast hx
  have hy' : (ny : ℂ) ≠ 0 := by exact_mod_cast hy
  rw [fourierCoef_eq]
  have h0 : (∑ x : Fin nx, ∑ y : Fin ny, e * (wave nx m x * wave ny n y)) =
      e * ((∑ x : Fin nx, wave nx m x) * ∑ y : Fin ny, wave ny n y) := by
    rw [Finset.sum_mul_sum, Finset.mul_sum]
    exact Finset.sum_congr rfl fun x _ => by rw [Finset.mul_sum]
  simp only [h0]
  have hdvd : ∀ (k : ℕ) (j : ℤ), |j| < k → j ≠ 0 → ¬ (k : ℤ) ∣ j := fun k j hj h0 hd =>
    h0 (Int.eq_zero_of_abs_lt_dvd hd hj)
  by_cases h1 : m = 0
  · by_cases h2 : n = 0
    · subst h1 h2
      simp only [wave_zero, and_self, if_true]
      simp
      field_simp
    · rw [sum_wave hy n (hdvd _ _ hn h2)]; simp [h2]
  · rw [sum_wave hx m (hdvd _ _ hm h1)]; simp [h1]

theorem star_fourierCoef {a : Arr2} (hreal : ∀ x y, (a.val x y).im = 0) (m n : ℤ) :
    star (fourierCoef a m n) = fourierCoef a (-m) (-n) := by
  rw [fourierCoef_eq, fourierCoef_eq, star_div₀, star_sum]
  congr 1
  · refine Finset.sum_congr rfl fun x _ => ?_
    rw [star_sum]
    refine Finset.sum_congr rfl fun y _ => ?_
    rw [wave_neg, wave_neg, star_mul, star_mul]
    have : star (a.val x y) = a.val x y := Complex.conj_eq_iff_im.2 (hreal x y)
    rw [this]; ring
  · simp

/-- A convolution matrix that was returned is the matrix of Fourier coefficients. -/
theorem convolutionMatrix_eq {a : Arr2} {pw : ℕ × ℕ} {C : Matrix (Fin (pw.1 * pw.2)) _ ℂ}
    (h1 : 0 < pw.1) (h2 : 0 < pw.2) (h : convolutionMatrix (pw.1 * pw.2) a pw = .ok C) :
    2 * pw.1 - 1 ≤ a.nx ∧ 2 * pw.2 - 1 ≤ a.ny ∧
      C = Matrix.of fun r c : Fin (pw.1 * pw.2) => fourierCoef a (diffAt pw.1 r c).1 (diffAt pw.1 r c).2 := by
  have h0 : a.nx ≠ 0 ∧ a.ny ≠ 0 := by
    by_contra h0
    rw [convolutionMatrix, pyCheck_err h0] at h
    simp [error_bind] at h
  by_cases hs : a.nx < 2 * pw.1 - 1 ∨ a.ny < 2 * pw.2 - 1
  · rw [convolutionMatrix_small h1 h2 (by omega) (by omega) (by omega)] at h; simp at h
  · push Not at hs
    rw [convolutionMatrix_ok (by omega) (by omega) h0.1 h0.2, Except.ok.injEq] at h
    exact ⟨hs.1, hs.2, h.symm⟩

theorem quadratic_convolution {a : Arr2} {pw : ℕ × ℕ} (v : Fin (pw.1 * pw.2) → ℂ) :
    star v ⬝ᵥ (Matrix.of (fun r c : Fin (pw.1 * pw.2) =>
        fourierCoef a (diffAt pw.1 r c).1 (diffAt pw.1 r c).2) *ᵥ v) =
      (∑ x, ∑ y, a.val x y * ((‖∑ c : Fin (pw.1 * pw.2),
        star (wave a.nx ((c : ℕ) % pw.1 : ℕ) x * wave a.ny ((c : ℕ) / pw.1 : ℕ) y) * v c‖ ^ 2 : ℝ) : ℂ)) /
        (a.nx * a.ny) := by
  rw [← fourier_quadratic a (fun r : Fin (pw.1 * pw.2) =>
    (((r : ℕ) % pw.1 : ℕ), ((r : ℕ) / pw.1 : ℕ))) v]
  simp only [dotProduct, mulVec, Pi.star_apply, Finset.mul_sum, Matrix.of_apply, diffAt]
  exact Finset.sum_congr rfl fun r _ => Finset.sum_congr rfl fun c _ => by ring

end Khepri
