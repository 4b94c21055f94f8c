import Verif.Lemmas.ExtensionUniform
import Verif.Props.Expansion

set_option linter.unusedSectionVars false

/-!
# Example: a vacuum layer on two commensurate lattices
-/

namespace Khepri

open Matrix

variable {n : Type} [Fintype n] [DecidableEq n]

theorem buildScatmat_matched {V : Matrix n n ℂ} (hV : V.det ≠ 0) (lam : n → ℂ) (d k0 : ℝ) :
    ∃ S, buildScatmat 1 V 1 V lam d k0 = .ok S := by
  have hA : (1 : Matrix n n ℂ)⁻¹ * 1 + V⁻¹ * V = (2 : ℂ) • 1 := by
    rw [inv_mul_of_det hV, inv_one, Matrix.one_mul, two_smul]
  have hB : (1 : Matrix n n ℂ)⁻¹ * 1 - V⁻¹ * V = 0 := by
    rw [inv_mul_of_det hV, inv_one, Matrix.one_mul, sub_self]
  have h2 : ((2 : ℂ) • (1 : Matrix n n ℂ)).det ≠ 0 := by
    rw [det_smul, det_one, mul_one]; exact pow_ne_zero _ two_ne_zero
  refine ⟨⟨_, _, _, _⟩, buildScatmat_eq_ok.2 ⟨_, _, _, _, rfl, rfl, rfl, rfl, by simp, hV, ?_, ?_, rfl, rfl,
    rfl, rfl⟩⟩
  · rw [hA]; exact h2
  · rw [hA, hB, Matrix.mul_zero, sub_zero]; exact h2

variable {N : ℕ}

/-- A vacuum layer solves at every wave vector that is not grazing for any order. -/
theorem vacuum_solve (lib : NumLib) (e : Expansion N) (d : ℝ) (kp : ℂ × ℂ) {wl : ℝ} (hwl : wl ≠ 0)
    (hg : ∀ i, 1 - ((kp.1 + ((e.g i).1 : ℂ)) / ((2 * Real.pi / wl : ℝ) : ℂ)) ^ 2 -
      ((kp.2 + ((e.g i).2 : ℂ)) / ((2 * Real.pi / wl : ℝ) : ℂ)) ^ 2 ≠ 0) :
    ∃ r, (Form.uniform 1).solve lib e d kp wl = .ok r := by
  simp only [Form.solve, bind_eq_ok, inverseEps_eq_ok]
  have hV : (Matrix.of fun i j => qBlock
      (fun i => (kp.1 + ((e.g i).1 : ℂ)) / ((2 * Real.pi / wl : ℝ) : ℂ))
      (fun i => (kp.2 + ((e.g i).2 : ℂ)) / ((2 * Real.pi / wl : ℝ) : ℂ)) 1 i j /
        stack2 (fun i => Complex.I * kzMasked (1 - ((kp.1 + ((e.g i).1 : ℂ)) / ((2 * Real.pi / wl : ℝ) : ℂ)) ^ 2 -
      ((kp.2 + ((e.g i).2 : ℂ)) / ((2 * Real.pi / wl : ℝ) : ℂ)) ^ 2)) j).det ≠ 0 := by
    refine (uniform_isModes one_ne_zero (fun i => kzMasked_eq_zero.not.2 (hg i)) fun i => kzMasked_sq _).det_V
      (by simp) ?_
    rintro (j | j) <;> simp only [stack2, Sum.elim_inl, Sum.elim_inr] <;>
      exact mul_ne_zero Complex.I_ne_zero (kzMasked_eq_zero.not.2 (hg j))
  obtain ⟨S, hS⟩ := buildScatmat_matched hV (stack2 fun i => Complex.I * kzMasked (1 -
    ((kp.1 + ((e.g i).1 : ℂ)) / ((2 * Real.pi / wl : ℝ) : ℂ)) ^ 2 -
      ((kp.2 + ((e.g i).2 : ℂ)) / ((2 * Real.pi / wl : ℝ) : ℂ)) ^ 2)) d (2 * Real.pi / wl)
  exact ⟨_, (_, _, _), kVectors_eq_ok.2 ⟨hwl, rfl, rfl, rfl⟩, (_, _), freeSpaceEigenmodes_eq_ok.2 ⟨hg, rfl, rfl⟩,
    (_, _, _), solveUniformLayer_eq_ok.2 ⟨one_ne_zero, hg, rfl, rfl, rfl⟩, S, hS, _, ⟨one_ne_zero, rfl⟩, rfl⟩

theorem square_lattice (tag : ℕ) {a : ℝ} (ha : a ≠ 0) : ∃ e : Expansion 9,
    Expansion.make tag (3, 3) ((a, 0), (0, a)) = .ok e ∧ e.tag = tag ∧ e.pw = (3, 3) ∧
    ∀ i : Fin 9, e.g i = (2 * Real.pi / a * (orderAt (3, 3) i).1, 2 * Real.pi / a * (orderAt (3, 3) i).2) := by
  refine ⟨_, make_eq_ok.2 ⟨rfl, rfl, _, reciproc_eq_ok.2 ⟨by simpa using ha, rfl⟩, rfl⟩, rfl, rfl, fun i => ?_⟩
  simp only [latticeVec]
  ext <;> simp only [mul_zero, sub_zero, neg_zero, zero_mul, add_zero, zero_add] <;> field_simp

/-- Two 3×3 expansions: period 1 and period 1/2. -/
theorem two_lattices : ∃ (lhs rhs : Expansion 9) (se : SumExpansion 9),
    Built lhs ∧ Built rhs ∧ lhs.tag ≠ rhs.tag ∧ lhs.add 2 rhs = .ok se ∧
    ∀ p, ∃ a b : ℤ, se.exp.g p = (2 * Real.pi * a, 2 * Real.pi * b) := by
  obtain ⟨l, hl, tl, pl, gl⟩ := square_lattice 0 one_ne_zero
  obtain ⟨r, hr, tr, -, gr⟩ := square_lattice 1 (a := 1 / 2) (by norm_num)
  obtain ⟨se, hse⟩ := add_ok 2 l r (by rw [pl]; rfl) (by rw [pl]; rfl)
  refine ⟨l, r, se, .make hl, .make hr, by rw [tl, tr]; simp, hse, fun p => ?_⟩
  obtain ⟨i, j, rfl⟩ := exists_jointPos 0 p
  refine ⟨(orderAt (3, 3) i).1 + 2 * (orderAt (3, 3) j).1, (orderAt (3, 3) i).2 + 2 * (orderAt (3, 3) j).2, ?_⟩
  rw [joint_rhs hse i j, gl, gr]
  push_cast
  ext <;> simp only <;> ring

/-- At normal incidence and wavelength 4 no order of that sum is grazing. -/
theorem two_lattices_not_grazing {g : R2} (h : ∃ a b : ℤ, g = (2 * Real.pi * a, 2 * Real.pi * b)) :
    1 - (((0 : ℂ) + (g.1 : ℂ)) / ((2 * Real.pi / 4 : ℝ) : ℂ)) ^ 2 -
      ((0 + (g.2 : ℂ)) / ((2 * Real.pi / 4 : ℝ) : ℂ)) ^ 2 ≠ 0 := by
  obtain ⟨a, b, rfl⟩ := h
  have hpi : (Real.pi : ℂ) ≠ 0 := by exact_mod_cast Real.pi_ne_zero
  have e : ∀ c : ℤ, ((0 : ℂ) + ((2 * Real.pi * c : ℝ) : ℂ)) / ((2 * Real.pi / 4 : ℝ) : ℂ) = ((4 * c : ℤ) : ℂ) := by
    intro c; push_cast; field_simp; ring
  rw [e, e]
  intro h0
  have : ((1 - (4 * a) ^ 2 - (4 * b) ^ 2 : ℤ) : ℂ) = 0 := by push_cast; push_cast at h0; exact h0
  have h1 : (1 - (4 * a) ^ 2 - (4 * b) ^ 2 : ℤ) = 0 := by exact_mod_cast this
  have h2 : 16 * (a ^ 2 + b ^ 2) = 1 := by linarith
  omega

end Khepri
