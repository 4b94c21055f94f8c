import Verif.Lemmas.ExamplePlate
import Verif.Lemmas.ExampleRun
import Verif.Props.Symmetry

/-!
Devices and their mirror images.
-/

namespace Khepri

open Matrix

/-- Orders of the unit square lattice at half the Bragg angle, from the other side. -/
theorem halfBragg_neg {pw : ℕ × ℕ} {tag : ℕ} {e : Expansion (pw.1 * pw.2)}
    (he : Expansion.make tag pw ((1, 0), (0, 1)) = .ok e) (i : Fin (pw.1 * pw.2)) :
    1 - orderKx e (-(Real.pi / 2), 0) 2 i ^ 2 - orderKy e (-(Real.pi / 2), 0) 2 i ^ 2 ≠ 0 := by
  obtain ⟨-, -, b, hb, rfl⟩ := make_eq_ok.1 he
  obtain ⟨-, rfl⟩ := reciproc_eq_ok.1 hb
  have hpi := Real.pi_pos
  simp only [orderKx, orderKy, latticeVec]
  generalize orderAt pw i = mn
  obtain ⟨a, b⟩ := mn
  have e1 : (-(Real.pi / 2) + (1 * (2 * Real.pi / (1 * 1 - 0 * 0)) * (a : ℝ) + -0 * (2 * Real.pi / (1 * 1 - 0 * 0)) * (b : ℝ))) /
      (2 * Real.pi / 2) = -1 / 2 + 2 * a := by field_simp; ring
  have e2 : (0 + (-0 * (2 * Real.pi / (1 * 1 - 0 * 0)) * (a : ℝ) + 1 * (2 * Real.pi / (1 * 1 - 0 * 0)) * (b : ℝ))) /
      (2 * Real.pi / 2) = 2 * b := by field_simp; ring
  rw [e1, e2]
  intro h
  have h' : (4 : ℝ) = (-1 + 4 * a) ^ 2 + 16 * b ^ 2 := by linarith [h]
  have h'' : (4 : ℤ) = (-1 + 4 * a) ^ 2 + 16 * b ^ 2 := by exact_mod_cast h'
  have : (-1 + 4 * a) ^ 2 + 16 * b ^ 2 = 1 + 4 * (-2 * a + 4 * a ^ 2 + 4 * b ^ 2) := by ring
  omega

/-- A vacuum layer on the unit square lattice, with any odd numbers of orders, at half the Bragg angle on either side. -/
theorem bragg_run {P Q : ℕ} {e : Expansion (P * Q)} (he : Expansion.make 0 (P, Q) ((1, 0), (0, 1)) = .ok e) (b : Bool)
    {te tm : ℂ} (hpol : polNorm te tm ≠ 0) : ∃ (c3 : Crystal (P * Q)) (F : Crystal.Fluxes (P * Q)),
    DeviceRun plateLib (oneLayer e (.uniform 1) (1 / 3)) ["a"] (.inl true)
      [{ expansion := e, form := .uniform 1, depth := 1 / 3 }] 1 1 2 te tm 0 0
      (some (((if b then -(Real.pi / 2) else Real.pi / 2 : ℝ) : ℂ), ((0 : ℝ) : ℂ)))
      ((if b then -(Real.pi / 2) else Real.pi / 2), 0) c3 ∧
    c3.poyntingFluxEnd = .ok F := by
  have hpi := Real.pi_pos
  have hp3 := Real.two_le_pi
  have hpos : 0 < P * Q := by
    obtain ⟨h1, h2, -⟩ := make_eq_ok.1 he
    simp only at h1 h2
    exact Nat.mul_pos (by omega) (by omega)
  have k0 : Real.pi / 2 / (2 * Real.pi / 2) = 1 / 2 := by field_simp
  have k1 : -(Real.pi / 2) / (2 * Real.pi / 2) = -1 / 2 := by field_simp
  refine vacuum_run plateLib e hpos (wl := 2) two_pos (kp := (if b then -(Real.pi / 2) else Real.pi / 2, 0))
    (fun i => ?_) hpol (theta := 0) (phi := 0) rfl ?_ (.inr ?_) (1 / 3)
  · cases b with
    | false =>
      have := halfBragg one_pos he i
      simpa using this
    | true => exact halfBragg_neg he i
  · cases b
    · simp only [Bool.false_eq_true, if_false, k0]; norm_num
    · simp only [if_true, k1]; norm_num
  · cases b
    · simp only [Bool.false_eq_true, if_false]; nlinarith
    · simp only [if_true]; nlinarith

/-- A vacuum layer on the unit square lattice, with any odd numbers of orders, lit along the diagonal of the cell. -/
theorem diagonal_run {P Q : ℕ} {e : Expansion (P * Q)} (he : Expansion.make 0 (P, Q) ((1, 0), (0, 1)) = .ok e)
    {te tm : ℂ} (hpol : polNorm te tm ≠ 0) : ∃ (c3 : Crystal (P * Q)) (F : Crystal.Fluxes (P * Q)),
    DeviceRun plateLib (oneLayer e (.uniform 1) (1 / 3)) ["a"] (.inl true)
      [{ expansion := e, form := .uniform 1, depth := 1 / 3 }] 1 1 2 te tm 0 0
      (some (((Real.pi / 2 : ℝ) : ℂ), ((Real.pi / 2 : ℝ) : ℂ))) (Real.pi / 2, Real.pi / 2) c3 ∧
    c3.poyntingFluxEnd = .ok F := by
  have hpi := Real.pi_pos
  have hp3 := Real.two_le_pi
  have hpos : 0 < P * Q := by
    obtain ⟨h1, h2, -⟩ := make_eq_ok.1 he
    simp only at h1 h2
    exact Nat.mul_pos (by omega) (by omega)
  have k0 : Real.pi / 2 / (2 * Real.pi / 2) = 1 / 2 := by field_simp
  refine vacuum_run plateLib e hpos (wl := 2) two_pos (kp := (Real.pi / 2, Real.pi / 2))
    (fun i => ?_) hpol (theta := 0) (phi := 0) rfl (by simp only [k0]; norm_num) (.inr (by simp only; nlinarith)) (1 / 3)
  obtain ⟨-, -, b, hb, rfl⟩ := make_eq_ok.1 he
  obtain ⟨-, rfl⟩ := reciproc_eq_ok.1 hb
  simp only [orderKx, orderKy, latticeVec]
  generalize orderAt (P, Q) i = mn
  obtain ⟨a, b⟩ := mn
  have e1 : (Real.pi / 2 + (1 * (2 * Real.pi / (1 * 1 - 0 * 0)) * (a : ℝ) + -0 * (2 * Real.pi / (1 * 1 - 0 * 0)) * (b : ℝ))) /
      (2 * Real.pi / 2) = 1 / 2 + 2 * a := by field_simp; ring
  have e2 : (Real.pi / 2 + (-0 * (2 * Real.pi / (1 * 1 - 0 * 0)) * (a : ℝ) + 1 * (2 * Real.pi / (1 * 1 - 0 * 0)) * (b : ℝ))) /
      (2 * Real.pi / 2) = 1 / 2 + 2 * b := by field_simp; ring
  rw [e1, e2]
  intro h
  have h' : (4 : ℝ) = (1 + 4 * a) ^ 2 + (1 + 4 * b) ^ 2 := by linarith [h]
  have h'' : (4 : ℤ) = (1 + 4 * a) ^ 2 + (1 + 4 * b) ^ 2 := by exact_mod_cast h'
  have : (1 + 4 * a) ^ 2 + (1 + 4 * b) ^ 2 = 2 + 8 * (a + 2 * a ^ 2 + b + 2 * b ^ 2) := by ring
  omega

/-- A pixmap whose mean is 4, with one order at normal incidence. -/
theorem meanFour_run {nx ny : ℕ} {val : Fin nx → Fin ny → ℂ} (hx : 0 < nx) (hy : 0 < ny)
    (hval : ∑ x, ∑ y, val x y = 4 * (nx * ny)) {te tm : ℂ} (hpol : polNorm te tm ≠ 0) : ∃ (c3 : Crystal (1 * 1)) (F : Crystal.Fluxes (1 * 1)),
    DeviceRun plateLib (oneLayer exampleExpansion (.fft ⟨nx, ny, val⟩) 4⁻¹) ["a"] (.inl true)
      [{ expansion := exampleExpansion, form := .fft ⟨nx, ny, val⟩, depth := 4⁻¹ }] 1 1 1 te tm 0 0 (some (0, 0)) (0, 0) c3 ∧
    c3.poyntingFluxEnd = .ok F := by
  have hC : convolutionMatrix 1 ⟨nx, ny, val⟩ (1, 1) = .ok ((4 : ℂ) • 1) := by
    have h := convolutionMatrix_ok (a := ⟨nx, ny, val⟩) (pw := (1, 1)) (by simp only; omega) (by simp only; omega)
      (by simp only; omega) (by simp only; omega)
    refine h.trans (congrArg Except.ok ?_)
    ext i j
    have hi : i = (0 : Fin 1) := Subsingleton.elim (α := Fin 1) _ _
    have hj : j = (0 : Fin 1) := Subsingleton.elim (α := Fin 1) _ _
    subst hi hj
    have h1 : (nx : ℂ) ≠ 0 := by exact_mod_cast hx.ne'
    have h2 : (ny : ℂ) ≠ 0 := by exact_mod_cast hy.ne'
    simp [diffAt, fourierCoef]
    rw [hval]
    field_simp
  obtain ⟨r, -, hr⟩ := meanFour_solve hC
  have hg : ∀ i, 1 - orderKx exampleExpansion (0, 0) 1 i ^ 2 - orderKy exampleExpansion (0, 0) 1 i ^ 2 ≠ 0 := by
    intro i; simp [orderKx, orderKy, exampleExpansion]
  obtain ⟨c3, st, h1, -, -, h2⟩ := oneLayer_run plateLib exampleExpansion one_pos hg te tm (theta := 0) (phi := 0)
    (kpo := some (0, 0)) (by simp [Crystal.orDefault]) (f := .fft ⟨nx, ny, val⟩) (by simp [Form.isLayer])
    (by simpa using hr) true
  obtain ⟨f, hf⟩ := h2 one_pos hpol (by simp) (.inl ⟨rfl, rfl⟩)
  exact ⟨c3, f, h1, hf⟩

end Khepri
