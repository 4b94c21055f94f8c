import Verif.Lemmas.Transforms
import Verif.Spec.Fourier
import Mathlib.Analysis.SpecialFunctions.Trigonometric.Deriv

/-!
# C80: the other two syntheses of real-space fields

`fourier2real_fft` (an inverse FFT of the padded amplitudes) and `fourier2direct2` (a sum of plane waves).
-/

namespace Khepri

open Complex

theorem fdiv_two_even (q : ℕ) : Int.fdiv (2 * q : ℤ) 2 = q := by
  rw [Int.fdiv_eq_ediv_of_nonneg _ (by norm_num)]; omega

/-- **C80.**  `fourier2real_fft` of a square array of amplitudes onto a grid `p + 2 q` points wide returns `T × T` values;
`T²` times the value in row `r` and column `c` is the periodic part of the field at `x = c a / T`, `y = r a / T` times the
Bloch phase at `x = c a / (T - 1)`, `y = r a / (T - 1)`.  (Partial: the property asks for the field itself.  Missing: the
factor `T²`, and the Bloch phase at the points the periodic part is sampled at; both are false, see the
counterexamples.) -/
theorem C80_fft_partial {p q : ℕ} (hT : p + 2 * q ≠ 0) (f : Fin p → Fin p → ℂ) {a : ℝ} (ha : a ≠ 0) (kp : ℂ × ℂ) :
    ∃ F : Fin (p + 2 * q) → Fin (p + 2 * q) → ℂ,
      fourier2realFft ⟨p, p, f⟩ a (p + 2 * q : ℕ) kp = .ok ⟨p + 2 * q, p + 2 * q, F⟩
      ∧ ∀ r c, ((p + 2 * q : ℕ) : ℂ) ^ 2 * F r c
          = squareField f a (0, 0) ((c : ℕ) * a / (p + 2 * q : ℕ)) ((r : ℕ) * a / (p + 2 * q : ℕ))
            * exp (I * (kp.1 * ((c : ℕ) * a / ((p + 2 * q : ℕ) - 1) : ℝ) + kp.2 * ((r : ℕ) * a / ((p + 2 * q : ℕ) - 1) : ℝ))) := by
  have hb : Int.fdiv (((p + 2 * q : ℕ) : ℤ) - (p : ℕ)) 2 = q := by
    rw [show ((p + 2 * q : ℕ) : ℤ) - (p : ℕ) = 2 * q by push_cast; ring]
    exact fdiv_two_even q
  have hh : q + p + q = p + 2 * q := by ring
  refine ⟨fun r c => ifft2At (p + 2 * q) (p + 2 * q)
      (ifftshiftAt (p + 2 * q) (p + 2 * q) (padAt ⟨p, p, f⟩ q)) (broadcastAt (p + 2 * q) r) (broadcastAt (p + 2 * q) c)
    * exp (I * (kp.1 * linspaceAt 0 a (p + 2 * q) (broadcastAt (p + 2 * q) c)
        + kp.2 * linspaceAt 0 a (p + 2 * q) (broadcastAt (p + 2 * q) r))), ?_, ?_⟩
  · unfold fourier2realFft
    simp only [hb, Int.toNat_natCast, hh]
    rw [pyCheck_ok (by omega), ok_bind, pyCheck_ok ⟨hT, hT⟩, ok_bind]
    simp only [broadcastAxis, if_true, ok_bind]
    rfl
  · intro r c
    have hbr : ∀ x : Fin (p + 2 * q), broadcastAt (p + 2 * q) x = x := by
      intro x
      unfold broadcastAt
      split_ifs with h1
      · have := x.2; omega
      · rfl
    have hl : ∀ x : Fin (p + 2 * q), linspaceAt 0 a (p + 2 * q) x = (x : ℕ) * a / ((p + 2 * q : ℕ) - 1) := by
      intro x
      unfold linspaceAt
      split_ifs with h1
      · have h2 : (x : ℕ) = 0 := by have := x.2; omega
        simp [h2]
      · push_cast; ring
    have hi := ifft2_padded f q r c
    rw [hh] at hi
    simp only [hbr, hl]
    rw [hi]
    have hTc : ((p + 2 * q : ℕ) : ℂ) ≠ 0 := by exact_mod_cast hT
    have hac : (a : ℂ) ≠ 0 := by exact_mod_cast ha
    have hs : squareField f a (0, 0) ((c : ℕ) * a / (p + 2 * q : ℕ)) ((r : ℕ) * a / (p + 2 * q : ℕ))
        = ∑ m : Fin p, ∑ n : Fin p, f m n * (turn (p + 2 * q) r ((m : ℤ) - (p : ℤ) / 2)
          * turn (p + 2 * q) c ((n : ℤ) - (p : ℤ) / 2)) := by
      unfold squareField
      refine Finset.sum_congr rfl fun m _ => Finset.sum_congr rfl fun n _ => ?_
      unfold turn
      rw [← Complex.exp_add]
      congr 2
      rw [Complex.ofReal_div, Complex.ofReal_div, Complex.ofReal_mul, Complex.ofReal_mul]
      simp only [Complex.ofReal_natCast]
      field_simp
      ring
    rw [hs]
    field_simp

/-- **C80.**  Scaling the amplitudes by `T²`, with no Bloch vector, makes the values those of the field itself. -/
theorem C80_fft_scaled {p q : ℕ} (hT : p + 2 * q ≠ 0) (f : Fin p → Fin p → ℂ) {a : ℝ} (ha : a ≠ 0) :
    ∃ F : Fin (p + 2 * q) → Fin (p + 2 * q) → ℂ,
      fourier2realFft ⟨p, p, fun m n => ((p + 2 * q : ℕ) : ℂ) ^ 2 * f m n⟩ a (p + 2 * q : ℕ) (0, 0)
        = .ok ⟨p + 2 * q, p + 2 * q, F⟩
      ∧ ∀ r c, F r c = squareField f a (0, 0) ((c : ℕ) * a / (p + 2 * q : ℕ)) ((r : ℕ) * a / (p + 2 * q : ℕ)) := by
  obtain ⟨F, hF, h⟩ := C80_fft_partial hT (fun m n => ((p + 2 * q : ℕ) : ℂ) ^ 2 * f m n) ha (0, 0)
  refine ⟨F, hF, fun r c => ?_⟩
  have hTc : ((p + 2 * q : ℕ) : ℂ) ≠ 0 := by exact_mod_cast hT
  have h := h r c
  simp only [zero_mul, add_zero, mul_zero, Complex.exp_zero, mul_one] at h
  have hs : squareField (fun m n => ((p + 2 * q : ℕ) : ℂ) ^ 2 * f m n) a (0, 0) ((c : ℕ) * a / (p + 2 * q : ℕ))
      ((r : ℕ) * a / (p + 2 * q : ℕ)) = ((p + 2 * q : ℕ) : ℂ) ^ 2
        * squareField f a (0, 0) ((c : ℕ) * a / (p + 2 * q : ℕ)) ((r : ℕ) * a / (p + 2 * q : ℕ)) := by
    unfold squareField
    simp only [Finset.mul_sum]
    refine Finset.sum_congr rfl fun m _ => Finset.sum_congr rfl fun n _ => ?_
    rw [mul_assoc]
  rw [hs] at h
  exact mul_left_cancel₀ (pow_ne_zero 2 hTc) h

/-- **C80.**  Without that factor the values are not those of the field: the uniform field one on three points is `1/9`. -/
theorem C80_fft_scale_counterexample :
    ∃ F : Fin 3 → Fin 3 → ℂ, fourier2realFft ⟨1, 1, fun _ _ => 1⟩ 1 3 (0, 0) = .ok ⟨3, 3, F⟩
      ∧ (∀ x y, squareField (fun _ _ : Fin 1 => 1) 1 (0, 0) x y = 1) ∧ ∀ r c, F r c = 1 / 9 := by
  obtain ⟨F, hF, h⟩ := C80_fft_partial (p := 1) (q := 1) (by norm_num) (fun _ _ => 1) one_ne_zero (0, 0)
  have hs : ∀ x y, squareField (fun _ _ : Fin 1 => 1) 1 (0, 0) x y = 1 := by
    intro x y
    simp [squareField]
  refine ⟨F, hF, hs, fun r c => ?_⟩
  have h := h r c
  rw [hs] at h
  simp only [zero_mul, add_zero, mul_zero, Complex.exp_zero, mul_one] at h
  norm_num at h
  linear_combination h / 9

/-- **C80.**  Nor, up to the factor `T²` and with a Bloch vector, are they those of the field at the points `c a / T` the
transform samples, nor at the points `c a / (T - 1)` of the phase: one wave of order one along `x`. -/
theorem C80_fft_bloch_counterexample :
    ∃ (f : Fin 3 → Fin 3 → ℂ) (kp : ℂ × ℂ) (F : Fin 3 → Fin 3 → ℂ),
      fourier2realFft ⟨3, 3, f⟩ 1 3 kp = .ok ⟨3, 3, F⟩
      ∧ (3 : ℂ) ^ 2 * F 0 2 ≠ squareField f 1 kp (2 / 3) 0 ∧ (3 : ℂ) ^ 2 * F 0 2 ≠ squareField f 1 kp 1 0 := by
  obtain ⟨F, hF, h⟩ := C80_fft_partial (p := 3) (q := 0) (by norm_num) (fun m n => if m = 1 ∧ n = 2 then 1 else 0)
    one_ne_zero (Real.pi, 0)
  have hs : ∀ (kp : ℂ × ℂ) (x : ℝ), squareField (fun m n : Fin 3 => if m = 1 ∧ n = 2 then (1 : ℂ) else 0) 1 kp x 0
      = exp (I * ((kp.1 + 2 * Real.pi) * x)) := by
    intro kp x
    simp [squareField, Fin.sum_univ_three]
    norm_num
  refine ⟨_, _, F, hF, ?_⟩
  have h := h 0 2
  have e : ((((0 : Fin (3 + 2 * 0)) : ℕ) : ℝ) * 1 / ((3 + 2 * 0 : ℕ) : ℝ)) = 0 := by norm_num
  rw [e, hs] at h
  have hv : (3 : ℂ) ^ 2 * F 0 2 = exp ((Real.pi / 3 : ℝ) * I) := by
    have h3 : ((3 + 2 * 0 : ℕ) : ℂ) = 3 := by norm_num
    rw [h3] at h
    refine h.trans ?_
    rw [← Complex.exp_add, Complex.exp_eq_exp_iff_exists_int]
    refine ⟨1, ?_⟩
    have h2 : (((2 : Fin (3 + 2 * 0)) : ℕ) : ℝ) = 2 := by norm_num
    rw [h2]
    push_cast
    ring_nf
  have him : (exp ((Real.pi / 3 : ℝ) * I)).im ≠ 0 := by
    rw [Complex.exp_ofReal_mul_I_im, Real.sin_pi_div_three]
    positivity
  rw [hv, hs, hs]
  constructor
  · intro hc
    have e1 : exp (I * (((Real.pi : ℂ), (0 : ℂ)).1 + 2 * Real.pi) * ((2 / 3 : ℝ) : ℂ)) = 1 := by
      rw [Complex.exp_eq_one_iff]
      refine ⟨1, ?_⟩
      push_cast
      ring
    rw [← mul_assoc, e1] at hc
    exact him (by rw [hc]; rfl)
  · intro hc
    have e1 : exp (I * (((Real.pi : ℂ), (0 : ℂ)).1 + 2 * Real.pi) * ((1 : ℝ) : ℂ)) = -1 := by
      rw [← Complex.exp_pi_mul_I, Complex.exp_eq_exp_iff_exists_int]
      refine ⟨1, ?_⟩
      push_cast
      ring
    rw [← mul_assoc, e1] at hc
    exact him (by rw [hc]; simp)

/-- **C80.**  Grids of the other parity are refused: for a square array with an even number of orders, every odd
resolution (the default is 127) raises `ValueError`. -/
theorem C80_fft_parity (f : Arr2) (hsq : f.nx = f.ny) (a : ℝ) (kp : ℂ × ℂ) {T : ℕ} (hT : T ≠ 2)
    (hodd : (T + f.nx) % 2 = 1) : fourier2realFft f a T kp = .error .value := by
  unfold fourier2realFft
  rw [Int.fdiv_eq_ediv_of_nonneg _ (by norm_num), Int.fdiv_eq_ediv_of_nonneg _ (by norm_num)]
  rw [← hsq]
  dsimp only
  by_cases h0 : 0 ≤ ((T : ℤ) - f.nx) / 2 ∧ 0 ≤ ((T : ℤ) - f.nx) / 2
  · rw [pyCheck_ok h0, ok_bind]
    have hh : (((T : ℤ) - f.nx) / 2).toNat + f.nx + (((T : ℤ) - f.nx) / 2).toNat = T - 1 := by omega
    simp only [hh, Int.toNat_natCast]
    by_cases h1 : T - 1 ≠ 0 ∧ T - 1 ≠ 0
    · rw [pyCheck_ok h1, ok_bind]
      unfold broadcastAxis
      rw [if_neg (by omega), if_neg (by omega), if_neg (by omega)]
      rfl
    · unfold pyCheck
      rw [if_neg h1]
      rfl
  · unfold pyCheck
    rw [if_neg h0]
    rfl

/-- **C80.**  Arrays that are not square are refused as well, whatever the resolution from three points on. -/
theorem C80_fft_square (f : Arr2) (hx : f.nx ≠ 0) (hy : f.ny ≠ 0) (hne : f.nx ≠ f.ny) (a : ℝ) (kp : ℂ × ℂ) {T : ℕ}
    (hT : 3 ≤ T) : fourier2realFft f a T kp = .error .value := by
  unfold fourier2realFft
  rw [Int.fdiv_eq_ediv_of_nonneg _ (by norm_num), Int.fdiv_eq_ediv_of_nonneg _ (by norm_num)]
  dsimp only
  by_cases h0 : 0 ≤ ((T : ℤ) - f.nx) / 2 ∧ 0 ≤ ((T : ℤ) - f.ny) / 2
  · rw [pyCheck_ok h0, ok_bind]
    rw [pyCheck_ok (by omega), ok_bind]
    simp only [Int.toNat_natCast]
    by_cases h1 : (((T : ℤ) - f.nx) / 2).toNat + f.nx + (((T : ℤ) - f.ny) / 2).toNat = T
    · have h2 : (((T : ℤ) - f.nx) / 2).toNat + f.ny + (((T : ℤ) - f.ny) / 2).toNat ≠ T := by omega
      unfold broadcastAxis
      rw [if_pos h1, if_neg h2, if_neg (by omega), if_neg (by omega)]
      rfl
    · unfold broadcastAxis
      rw [if_neg h1, if_neg (by omega), if_neg (by omega)]
      rfl
  · unfold pyCheck
    rw [if_neg h0]
    rfl

/-- **C80.**  `fourier2direct2` of amplitudes in a one-dimensional array is the sum of plane waves at the points of the
grid.  (Partial: the property asks the same of two-dimensional arrays, where it is false.) -/
theorem C80_direct_partial {N : ℕ} (f kx ky : Fin N → ℂ) (a : ℝ) (T : ℕ × ℕ) (extent : Option (ℝ × ℝ × ℝ × ℝ)) :
    ∃ F : Fin T.1 → Fin T.2 → ℂ,
      fourier2direct2 (.one (List.ofFn f)) (.one (List.ofFn kx)) (.one (List.ofFn ky)) a T extent = .ok ⟨T.1, T.2, F⟩
      ∧ ∀ i j, F i j = wavesField f kx ky
          (linspaceAt (extent.getD (0, a, 0, a)).1 (extent.getD (0, a, 0, a)).2.1 T.1 i)
          (linspaceAt (extent.getD (0, a, 0, a)).2.2.1 (extent.getD (0, a, 0, a)).2.2.2 T.2 j) := by
  refine ⟨_, fourier2direct2_ok _ _ _ a T extent (by simp [NdArr.flat]) (by simp [NdArr.flat, NdArr.T]), ?_⟩
  · intro i j
    simp only [NdArr.flat, NdArr.T]
    unfold wavesField
    rw [Fin.sum_univ_def]
    simp only [List.ofFn_eq_map]
    rw [List.zip_map', List.zip_map', List.map_map]
    rfl

/-- **C80.**  For square two-dimensional arrays it is the field of the transposed amplitudes. -/
theorem C80_direct_transposed {p : ℕ} (f kx ky : Fin p → Fin p → ℂ) (a : ℝ) (T : ℕ × ℕ)
    (extent : Option (ℝ × ℝ × ℝ × ℝ)) :
    ∃ F : Fin T.1 → Fin T.2 → ℂ,
      fourier2direct2 (.two ⟨p, p, f⟩) (.two ⟨p, p, kx⟩) (.two ⟨p, p, ky⟩) a T extent = .ok ⟨T.1, T.2, F⟩
      ∧ ∀ i j, F i j = wavesField (fun g : Fin p × Fin p => f g.2 g.1) (fun g => kx g.1 g.2) (fun g => ky g.1 g.2)
          (linspaceAt (extent.getD (0, a, 0, a)).1 (extent.getD (0, a, 0, a)).2.1 T.1 i)
          (linspaceAt (extent.getD (0, a, 0, a)).2.2.1 (extent.getD (0, a, 0, a)).2.2.2 T.2 j) := by
  refine ⟨_, fourier2direct2_ok _ _ _ a T extent (by simp [NdArr.flat, Arr2.elements])
    (by simp [NdArr.flat, NdArr.T, Arr2.elements]), ?_⟩
  · intro i j
    simp only [NdArr.flat, NdArr.T, Arr2.elements]
    unfold wavesField
    rw [Fintype.sum_prod_type]
    refine Eq.trans ?_ (sum_product_list fun m n => f n m * exp (I * (kx m n * _ + ky m n * _)))
    exact congrArg List.sum (zip_sum p p (fun m n => f n m) kx ky _ _)

/-- **C80.**  So it is not the field of the amplitudes: the wave in row 0 and column 1 is given the wave vector of row 1
and column 0. -/
theorem C80_direct_counterexample :
    ∃ (f kx ky : Fin 2 → Fin 2 → ℂ) (F : Fin 2 → Fin 1 → ℂ),
      fourier2direct2 (.two ⟨2, 2, f⟩) (.two ⟨2, 2, kx⟩) (.two ⟨2, 2, ky⟩) Real.pi (2, 1) none = .ok ⟨2, 1, F⟩
      ∧ F 1 0 ≠ wavesField (fun g : Fin 2 × Fin 2 => f g.1 g.2) (fun g => kx g.1 g.2) (fun g => ky g.1 g.2)
          Real.pi 0 := by
  obtain ⟨F, hF, h⟩ := C80_direct_transposed (p := 2) (fun m n => if m = 0 ∧ n = 1 then 1 else 0)
    (fun m n => if m = 0 ∧ n = 1 then 1 else 2) (fun _ _ => 0) Real.pi (2, 1) none
  refine ⟨_, _, _, F, hF, ?_⟩
  rw [h 1 0]
  have e1 : linspaceAt 0 Real.pi 2 ((1 : Fin 2) : ℕ) = Real.pi := by
    norm_num [linspaceAt]
  have e2 : linspaceAt 0 Real.pi 1 ((0 : Fin 1) : ℕ) = 0 := by
    norm_num [linspaceAt]
  simp only [Option.getD_none, e1, e2]
  unfold wavesField
  have t : exp (I * (2 * Real.pi)) = 1 := by
    rw [Complex.exp_eq_one_iff]
    exact ⟨1, by push_cast; ring⟩
  have t' : exp (I * Real.pi) = -1 := by rw [mul_comm, Complex.exp_pi_mul_I]
  simp [Fintype.sum_prod_type, Fin.sum_univ_two, t, t']
  norm_num

/-- The hypotheses are met: seven orders on a grid of 127 points. -/
example : ∃ F : Fin (7 + 2 * 60) → Fin (7 + 2 * 60) → ℂ,
    fourier2realFft ⟨7, 7, fun _ _ => 1⟩ 2 127 (1, 0) = .ok ⟨127, 127, F⟩ := by
  obtain ⟨F, hF, -⟩ := C80_fft_partial (p := 7) (q := 60) (by norm_num) (fun _ _ => 1) (a := 2) (by norm_num) (1, 0)
  exact ⟨F, hF⟩

example : fourier2realFft ⟨6, 6, fun _ _ => 1⟩ 2 127 (1, 0) = .error .value :=
  C80_fft_parity _ rfl 2 (1, 0) (T := 127) (by norm_num) (by norm_num)

/-! ## C92: the transform of a pixmap -/

/-- **C92** (partial: the factor).  `transform("pixmap", map, Gx, Gy, sigma)` gives at position `(k, l)` the Fourier coefficient
of order `(k, l)` of the map, and of every order that differs from it by whole numbers of pixels, *times the number of pixels
and divided by `sigma`*.  It refuses only empty maps and a null `sigma`. -/
theorem C92_pixmap_partial {map : Arr2} {sigma : ℝ} (hx : 0 < map.nx) (hy : 0 < map.ny) (hs : sigma ≠ 0) :
    ∃ F : Fin map.nx → Fin map.ny → ℂ, transformPixmap map sigma = .ok ⟨map.nx, map.ny, F⟩ ∧
      ∀ k l (a b : ℤ), F k l = map.nx * map.ny / sigma * fourierCoef map ((k : ℕ) + a * map.nx) ((l : ℕ) + b * map.ny) := by
  refine ⟨fun i j => (fft2 map).val i j / sigma, ?_, ?_⟩
  · rw [transformPixmap, pyCheck_ok ⟨hx.ne', hy.ne'⟩, ok_bind, pyCheck_ok hs, ok_bind]
    rfl
  · intro k l a b
    have h1 : (map.nx : ℂ) ≠ 0 := by exact_mod_cast hx.ne'
    have h2 : (map.ny : ℂ) ≠ 0 := by exact_mod_cast hy.ne'
    have h3 : (sigma : ℂ) ≠ 0 := by exact_mod_cast hs
    have e : (fft2 map).val k l = ∑ x, ∑ y, map.val x y *
        Complex.exp (-(2 * Real.pi * Complex.I * ((((k : ℕ) + a * map.nx : ℤ) : ℂ) * (x : ℕ) / map.nx +
          (((l : ℕ) + b * map.ny : ℤ) : ℂ) * (y : ℕ) / map.ny))) := by
      change ∑ x : Fin map.nx, ∑ y : Fin map.ny, map.val x y * Complex.exp (-(2 * Real.pi * Complex.I * ((k : ℕ) * (x : ℕ) / map.nx + (l : ℕ) * (y : ℕ) / map.ny))) = _
      refine Finset.sum_congr rfl fun x _ => ?_
      refine Finset.sum_congr rfl fun y _ => ?_
      refine congrArg (map.val x y * ·) (Complex.exp_eq_exp_iff_exists_int.2 ⟨a * (x : ℕ) + b * (y : ℕ), ?_⟩)
      push_cast
      field_simp
      ring
    simp only
    rw [e, fourierCoef]
    generalize (∑ x, ∑ y, map.val x y * _) = X
    field_simp

/-- **C92.** So it is the Fourier coefficient of the pattern, as `convolution_matrix` takes it, exactly for `sigma` equal to the
number of pixels; given the area of the cell, like the other transforms, it is not. -/
theorem C92_counterexample : ∃ (map : Arr2) (F : Arr2), map.nx = 1 ∧ map.ny = 1 ∧ transformPixmap map 2 = .ok F ∧
    fourierCoef map 0 0 = 1 ∧ ∃ (hx : 0 < F.nx) (hy : 0 < F.ny), F.val ⟨0, hx⟩ ⟨0, hy⟩ = 1 / 2 := by
  obtain ⟨F, hF, h⟩ := C92_pixmap_partial (map := ⟨1, 1, fun _ _ => 1⟩) (sigma := 2) one_pos one_pos two_ne_zero
  have h0 : fourierCoef ⟨1, 1, fun _ _ => 1⟩ 0 0 = 1 := by simp [fourierCoef]
  refine ⟨_, _, rfl, rfl, hF, h0, one_pos, one_pos, ?_⟩
  have := h ⟨0, one_pos⟩ ⟨0, one_pos⟩ 0 0
  simp only [Nat.cast_zero, zero_mul, add_zero, h0] at this
  refine this.trans ?_
  norm_num

/-- **C92.** It is the coefficient for all maps of a size exactly if `sigma` is the number of pixels. -/
theorem C92_exact {nx ny : ℕ} (hx : 0 < nx) (hy : 0 < ny) {sigma : ℝ} (hs : sigma ≠ 0) :
    (∀ val : Fin nx → Fin ny → ℂ, ∃ F : Fin nx → Fin ny → ℂ, transformPixmap ⟨nx, ny, val⟩ sigma = .ok ⟨nx, ny, F⟩ ∧
      ∀ k l, F k l = fourierCoef ⟨nx, ny, val⟩ (k : ℕ) (l : ℕ)) ↔ sigma = nx * ny := by
  have h1 : (nx : ℂ) ≠ 0 := by exact_mod_cast hx.ne'
  have h2 : (ny : ℂ) ≠ 0 := by exact_mod_cast hy.ne'
  have h3 : (sigma : ℂ) ≠ 0 := by exact_mod_cast hs
  constructor
  · intro h
    obtain ⟨F, hF, e⟩ := h fun _ _ => 1
    obtain ⟨G, hG, g⟩ := C92_pixmap_partial (map := ⟨nx, ny, fun _ _ => 1⟩) hx hy hs
    have hFG : F = G := by
      rw [hF] at hG
      simpa using hG
    subst hFG
    have e0 := e ⟨0, hx⟩ ⟨0, hy⟩
    have g0 := g ⟨0, hx⟩ ⟨0, hy⟩ 0 0
    have c0 : fourierCoef ⟨nx, ny, fun _ _ => 1⟩ 0 0 = 1 := by
      simp [fourierCoef, h1, h2]
    simp only [Nat.cast_zero, zero_mul, add_zero, c0] at e0 g0
    rw [e0, mul_one, eq_div_iff h3, one_mul] at g0
    exact_mod_cast g0
  · intro h val
    obtain ⟨F, hF, e⟩ := C92_pixmap_partial (map := ⟨nx, ny, val⟩) hx hy hs
    refine ⟨F, hF, fun k l => ?_⟩
    have := e k l 0 0
    simp only [zero_mul, add_zero] at this
    rw [this, h]
    push_cast
    rw [div_self (mul_ne_zero h1 h2), one_mul]

end Khepri
