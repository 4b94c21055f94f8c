import Verif.Lemmas.Convolution

/-!
# Properties C23, C24: convolution matrices
-/

namespace Khepri

open Complex Matrix

/-! ### C23 -/

/-- **C23.** When the pixmap holds every difference of orders (`Nx ≥ 2P-1`, `Ny ≥ 2Q-1`),
`convolution_matrix(structure, (P, Q))` returns the matrix whose entry `(row, col)` is the Fourier
coefficient at the difference of the orders that `generate_expansion_indices` lists at `row` and
`col`. -/
theorem C23_entries {a : Arr2} {pw : ℕ × ℕ} (h1 : Odd pw.1) (h2 : Odd pw.2)
    (hx : 2 * pw.1 - 1 ≤ a.nx) (hy : 2 * pw.2 - 1 ≤ a.ny) :
    ∃ C l, convolutionMatrix (pw.1 * pw.2) a pw = .ok C ∧ generateExpansionIndices pw = .ok l ∧
      ∀ (r c : Fin (pw.1 * pw.2)) (m n m' n' : ℤ), l[(r : ℕ)]? = some (m, n) →
        l[(c : ℕ)]? = some (m', n') → C r c = fourierCoef a (m - m') (n - n') := by
  rw [Nat.odd_iff] at h1 h2
  refine ⟨_, _, convolutionMatrix_ok (by omega) (by omega) (by omega) (by omega),
    generateExpansionIndices_eq h1 h2, ?_⟩
  intro r c m n m' n' hr hc
  rw [List.getElem?_map, List.getElem?_range r.2] at hr
  rw [List.getElem?_map, List.getElem?_range c.2] at hc
  simp only [Option.map_some, Option.some.injEq, orderAt, Prod.mk.injEq] at hr hc
  have e1 : (diffAt pw.1 r c).1 = m - m' := by simp only [diffAt]; rw [← hr.1, ← hc.1]; ring
  have e2 : (diffAt pw.1 r c).2 = n - n' := by simp only [diffAt]; rw [← hr.2, ← hc.2]; ring
  rw [Matrix.of_apply, e1, e2]

/-- **C23**, any counts (odd or even): entry `(qrow*P + prow, qcol*P + pcol)` is the coefficient at
`(prow - pcol, qrow - qcol)`. -/
theorem C23_entries_any {a : Arr2} {pw : ℕ × ℕ} (h1 : 0 < pw.1) (h2 : 0 < pw.2)
    (hx : 2 * pw.1 - 1 ≤ a.nx) (hy : 2 * pw.2 - 1 ≤ a.ny) :
    ∃ C, convolutionMatrix (pw.1 * pw.2) a pw = .ok C ∧
      ∀ (r c : Fin (pw.1 * pw.2)) (p q p' q' : ℕ), p < pw.1 → p' < pw.1 →
        (r : ℕ) = q * pw.1 + p → (c : ℕ) = q' * pw.1 + p' →
        C r c = fourierCoef a ((p : ℤ) - p') ((q : ℤ) - q') := by
  refine ⟨_, convolutionMatrix_ok (by omega) (by omega) (by omega) (by omega), ?_⟩
  intro r c p q p' q' hp hp' hr hc
  have e : ∀ p q : ℕ, p < pw.1 → (q * pw.1 + p) % pw.1 = p ∧ (q * pw.1 + p) / pw.1 = q := by
    intro p q hp
    rw [Nat.mul_comm, Nat.mul_add_mod, Nat.mul_add_div h1, Nat.mod_eq_of_lt hp, Nat.div_eq_of_lt hp]
    exact ⟨rfl, rfl⟩
  rw [Matrix.of_apply, diffAt, hr, hc, (e p q hp).1, (e p q hp).2, (e p' q' hp').1, (e p' q' hp').2]

/-- **C23.** A pixmap too small to hold every difference makes `convolution_matrix` raise
`IndexError`: no aliased matrix is ever returned. -/
theorem C23_too_small_raises {a : Arr2} {pw : ℕ × ℕ} (h1 : 0 < pw.1) (h2 : 0 < pw.2)
    (hx0 : 0 < a.nx) (hy0 : 0 < a.ny) (h : a.nx < 2 * pw.1 - 1 ∨ a.ny < 2 * pw.2 - 1) :
    convolutionMatrix (pw.1 * pw.2) a pw = .error .index :=
  convolutionMatrix_small h1 h2 (by omega) (by omega) (by omega)

/-- Non-vacuity: a 7×5 pixmap with a 3×3 expansion is accepted, a 4×5 one rejected. -/
example : (∃ C, convolutionMatrix 9 ⟨7, 5, fun x y => (x : ℕ) + 2 * (y : ℕ)⟩ (3, 3) = .ok C) ∧
    convolutionMatrix 9 ⟨4, 5, fun x y => (x : ℕ) + 2 * (y : ℕ)⟩ (3, 3) = .error .index :=
  ⟨let ⟨C, h, _⟩ := C23_entries_any (a := ⟨7, 5, fun x y => (x : ℕ) + 2 * (y : ℕ)⟩) (pw := (3, 3))
      (by norm_num) (by norm_num) (by norm_num) (by norm_num)
   ⟨C, h⟩,
   C23_too_small_raises (a := ⟨4, 5, fun x y => (x : ℕ) + 2 * (y : ℕ)⟩) (pw := (3, 3))
      (by norm_num) (by norm_num) (by norm_num) (by norm_num) (Or.inl (by norm_num))⟩

/-! ### C24 -/

/-- **C24.** The convolution matrix of a real pixmap is Hermitian. -/
theorem C24_hermitian {a : Arr2} {pw : ℕ × ℕ} {C : Matrix (Fin (pw.1 * pw.2)) _ ℂ}
    (h1 : 0 < pw.1) (h2 : 0 < pw.2) (h : convolutionMatrix (pw.1 * pw.2) a pw = .ok C)
    (hreal : ∀ x y, (a.val x y).im = 0) : C.IsHermitian := by
  obtain ⟨-, -, rfl⟩ := convolutionMatrix_eq h1 h2 h
  ext r c
  rw [Matrix.conjTranspose_apply, Matrix.of_apply, Matrix.of_apply, star_fourierCoef hreal]
  congr 1 <;> simp only [diffAt] <;> ring

/-- **C24.** The convolution matrix of a constant pixmap is that constant times the identity. -/
theorem C24_constant {a : Arr2} {pw : ℕ × ℕ} {C : Matrix (Fin (pw.1 * pw.2)) _ ℂ}
    (h1 : 0 < pw.1) (h2 : 0 < pw.2) (h : convolutionMatrix (pw.1 * pw.2) a pw = .ok C)
    {e : ℂ} (hconst : ∀ x y, a.val x y = e) : C = e • (1 : Matrix _ _ ℂ) := by
  obtain ⟨hx, hy, rfl⟩ := convolutionMatrix_eq h1 h2 h
  have ha : a = ⟨a.nx, a.ny, fun _ _ => e⟩ := by
    obtain ⟨nx, ny, val⟩ := a
    simp only [Arr2.mk.injEq, heq_eq_eq, true_and]
    funext x y; exact hconst x y
  ext r c
  obtain ⟨b1, b2⟩ := diffAt_bound r.2 c.2
  rw [Matrix.of_apply, ha, fourierCoef_const (by omega) (by omega) e _ _ (by omega) (by omega)]
  rw [Matrix.smul_apply, Matrix.one_apply]
  have : ((diffAt pw.1 r c).1 = 0 ∧ (diffAt pw.1 r c).2 = 0) ↔ r = c := by
    rw [Fin.ext_iff]
    simp only [diffAt]
    constructor
    · rintro ⟨e1, e2⟩
      rw [← Nat.div_add_mod (r : ℕ) pw.1, ← Nat.div_add_mod (c : ℕ) pw.1]
      have e1' : (r : ℕ) % pw.1 = (c : ℕ) % pw.1 := by omega
      have e2' : (r : ℕ) / pw.1 = (c : ℕ) / pw.1 := by
        generalize (r : ℕ) / pw.1 = u at *
        generalize (c : ℕ) / pw.1 = v at *
        omega
      rw [e1', e2']
    · intro e; rw [e]; simp
  simp [this]

/-- **C24.** If every pixel is real and at least `e0`, the convolution matrix is bounded below by `e0`:
`v* C v` is real and at least `e0 |v|²`. -/
theorem C24_lower_bound {a : Arr2} {pw : ℕ × ℕ} {C : Matrix (Fin (pw.1 * pw.2)) _ ℂ}
    (h1 : 0 < pw.1) (h2 : 0 < pw.2) (h : convolutionMatrix (pw.1 * pw.2) a pw = .ok C)
    {e0 : ℝ} (hreal : ∀ x y, (a.val x y).im = 0) (hpos : ∀ x y, e0 ≤ (a.val x y).re)
    (v : Fin (pw.1 * pw.2) → ℂ) :
    (star v ⬝ᵥ (C *ᵥ v)).im = 0 ∧ e0 * ∑ i, ‖v i‖ ^ 2 ≤ (star v ⬝ᵥ (C *ᵥ v)).re := by
  obtain ⟨hx, hy, rfl⟩ := convolutionMatrix_eq h1 h2 h
  -- the constant map gives `|v|²`
  have hone := convolutionMatrix_ok (a := ⟨a.nx, a.ny, fun _ _ => 1⟩) (pw := pw)
    (by simp only; omega) (by simp only; omega) (by simp only; omega) (by simp only; omega)
  have hC1 := C24_constant h1 h2 hone (e := 1) fun _ _ => rfl
  have hq1 := quadratic_convolution (a := ⟨a.nx, a.ny, fun _ _ => 1⟩) (pw := pw) v
  rw [hC1, one_smul, Matrix.one_mulVec] at hq1
  set s : Fin a.nx → Fin a.ny → ℝ := fun x y => ‖∑ c : Fin (pw.1 * pw.2),
    star (wave a.nx ((c : ℕ) % pw.1 : ℕ) x * wave a.ny ((c : ℕ) / pw.1 : ℕ) y) * v c‖ ^ 2 with hs
  have hs0 : ∀ x y, 0 ≤ s x y := fun x y => sq_nonneg _
  have hv : star v ⬝ᵥ v = ((∑ i, ‖v i‖ ^ 2 : ℝ) : ℂ) := by
    simp only [dotProduct, Pi.star_apply, Complex.ofReal_sum]
    refine Finset.sum_congr rfl fun i _ => ?_
    rw [Complex.star_def, ← Complex.normSq_eq_conj_mul_self, Complex.sq_norm]
  have e1 : ((∑ i, ‖v i‖ ^ 2 : ℝ) : ℂ) = (((∑ x, ∑ y, s x y) / (a.nx * a.ny) : ℝ) : ℂ) := by
    rw [← hv, hq1]
    push_cast
    simp [hs]
  have e1' : ∑ i, ‖v i‖ ^ 2 = (∑ x, ∑ y, s x y) / (a.nx * a.ny) := by exact_mod_cast e1
  have hre : ∀ x y, a.val x y = (((a.val x y).re : ℝ) : ℂ) := fun x y =>
    Complex.ext (by simp) (by simp [hreal x y])
  have e2 : star v ⬝ᵥ (Matrix.of (fun r c : Fin (pw.1 * pw.2) =>
        fourierCoef a (diffAt pw.1 r c).1 (diffAt pw.1 r c).2) *ᵥ v) =
      (((∑ x, ∑ y, (a.val x y).re * s x y) / (a.nx * a.ny) : ℝ) : ℂ) := by
    rw [quadratic_convolution]
    push_cast
    congr 1
    refine Finset.sum_congr rfl fun x _ => Finset.sum_congr rfl fun y _ => ?_
    conv_lhs => rw [hre x y]
    simp [hs]
  rw [e2]
  refine ⟨Complex.ofReal_im _, ?_⟩
  rw [Complex.ofReal_re, e1', mul_div_assoc']
  refine div_le_div_of_nonneg_right ?_ (by positivity)
  rw [Finset.mul_sum]
  refine Finset.sum_le_sum fun x _ => ?_
  rw [Finset.mul_sum]
  exact Finset.sum_le_sum fun y _ => mul_le_mul_of_nonneg_right (hpos x y) (hs0 x y)

/-- **C24.** Hence the permittivity matrix of a positive map is invertible: inverting it and forming
the matrix `P` of the layer's eigenproblem cannot fail. -/
theorem C24_invertible {a : Arr2} {pw : ℕ × ℕ} {C : Matrix (Fin (pw.1 * pw.2)) _ ℂ}
    (h1 : 0 < pw.1) (h2 : 0 < pw.2) (h : convolutionMatrix (pw.1 * pw.2) a pw = .ok C)
    (hreal : ∀ x y, (a.val x y).im = 0) {e0 : ℝ} (he0 : 0 < e0)
    (hpos : ∀ x y, e0 ≤ (a.val x y).re) (kx ky : Fin (pw.1 * pw.2) → ℂ) :
    C.det ≠ 0 ∧ (∃ iC, npInv C = .ok iC) ∧ ∃ P, structuredP kx ky C = .ok P := by
  have hdet : C.det ≠ 0 := by
    intro h0
    obtain ⟨v, hv, hCv⟩ := Matrix.exists_mulVec_eq_zero_iff.2 h0
    obtain ⟨-, hb⟩ := C24_lower_bound h1 h2 h hreal hpos v
    rw [hCv, dotProduct_zero, Complex.zero_re] at hb
    have : 0 < ∑ i, ‖v i‖ ^ 2 := by
      obtain ⟨i, hi⟩ := Function.ne_iff.1 hv
      have hi' : 0 < ‖v i‖ ^ 2 := by
        have := norm_pos_iff.2 hi
        positivity
      exact lt_of_lt_of_le hi' (Finset.single_le_sum (f := fun i => ‖v i‖ ^ 2)
        (fun j _ => sq_nonneg _) (Finset.mem_univ i))
    have := mul_pos he0 this
    linarith
  refine ⟨hdet, ⟨_, npInv_ok hdet⟩, ?_⟩
  simp only [structuredP, npSolve_ok hdet, ok_bind]
  exact ⟨_, rfl⟩

/-- Non-vacuity of C24: a real map with values in `{2, 5}`. -/
example : ∃ (a : Arr2) (C : Matrix (Fin 9) (Fin 9) ℂ), convolutionMatrix 9 a (3, 3) = .ok C ∧
    (∀ x y, (a.val x y).im = 0) ∧ ∀ x y, (2 : ℝ) ≤ (a.val x y).re := by
  obtain ⟨C, h, -⟩ := C23_entries_any (a := ⟨6, 5, fun x _ => if (x : ℕ) < 3 then 2 else 5⟩)
    (pw := (3, 3)) (by norm_num) (by norm_num) (by norm_num) (by norm_num)
  refine ⟨_, C, h, fun x y => ?_, fun x y => ?_⟩ <;> simp only <;> split <;> norm_num

end Khepri
