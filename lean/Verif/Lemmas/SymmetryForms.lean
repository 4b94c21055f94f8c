import Verif.Lemmas.Symmetry
import Verif.Lemmas.Analytical

set_option linter.unusedSectionVars false

namespace Khepri

open Matrix Complex

variable {N : ℕ}

/-! ### Enlarged patterns -/

theorem latticeVec_div (b : R2 × R2) (s : ℝ) (mn : ℤ × ℤ) :
    latticeVec ((b.1.1 / s, b.1.2 / s), (b.2.1 / s, b.2.2 / s)) mn =
      ((latticeVec b mn).1 / s, (latticeVec b mn).2 / s) := by
  simp only [latticeVec]
  ring_nf

theorem transformRectangle_scale {s : ℝ} (hs : 0 < s) (a b c d : ℝ) (g : R2) (sigma : ℝ) :
    transformRectangle (s * a) (s * b) (s * c) (s * d) (g.1 / s, g.2 / s) (s ^ 2 * sigma) =
      transformRectangle a b c d g sigma := by
  have h : (s : ℂ) ≠ 0 := by exact_mod_cast hs.ne'
  simp only [transformRectangle]
  push_cast
  have e1 : ∀ x y z : ℂ, -I * (x / s) * (s * y - s * z) = -I * x * (y - z) := fun x y z => by field_simp
  have e2 : ((s : ℂ) * c - s * a) * (s * d - s * b) / (s ^ 2 * sigma) = (c - a) * (d - b) / sigma := by
    rw [show ((s : ℂ) * c - s * a) * (s * d - s * b) = s ^ 2 * ((c - a) * (d - b)) by ring,
      mul_div_mul_left _ _ (pow_ne_zero 2 h)]
  have e3 : -I * (s * a * (g.1 / s) + s * b * (g.2 / s) : ℂ) = -I * (a * g.1 + b * g.2) := by field_simp
  rw [e1, e1, e2, e3]

theorem transformDisc_scale {jv1 : ℝ → ℝ} {s : ℝ} (hs : 0 < s) (a b r : ℝ) {g : R2} (hg : ClearOf g)
    (hg' : ClearOf (g.1 / s, g.2 / s)) (sigma : ℝ) :
    transformDisc jv1 (s * a) (s * b) (s * r) (g.1 / s, g.2 / s) (s ^ 2 * sigma) = transformDisc jv1 a b r g sigma := by
  have h : (s : ℂ) ≠ 0 := by exact_mod_cast hs.ne'
  have hz : ∀ g : R2, ClearOf g → ((|g.1| ≤ 1 / 10 ^ 8 ∧ |g.2| ≤ 1 / 10 ^ 8) ↔ g = 0) := by
    intro g hg
    constructor
    · rintro ⟨h1, h2⟩
      rcases hg with h | h | h
      · exact h
      · exact absurd h1 (not_le.2 h)
      · exact absurd h2 (not_le.2 h)
    · rintro rfl
      simp
  have hzz : (((g.1 / s, g.2 / s) : R2) = 0) ↔ g = 0 := by
    rw [Prod.ext_iff, Prod.ext_iff]
    simp [hs.ne']
  have hn : Real.sqrt (g.1 / s * (g.1 / s) + g.2 / s * (g.2 / s)) * (s * r) = Real.sqrt (g.1 * g.1 + g.2 * g.2) * r := by
    rw [show g.1 / s * (g.1 / s) + g.2 / s * (g.2 / s) = (g.1 * g.1 + g.2 * g.2) / s ^ 2 by field_simp,
      Real.sqrt_div' _ (by positivity), Real.sqrt_sq hs.le]
    field_simp
  have hr : Real.pi * (s * r) ^ 2 / (s ^ 2 * sigma) = Real.pi * r ^ 2 / sigma := by
    rw [show Real.pi * (s * r) ^ 2 = s ^ 2 * (Real.pi * r ^ 2) by ring, mul_div_mul_left _ _ (pow_ne_zero 2 hs.ne')]
  have e3 : -I * (s * a * (g.1 / s) + s * b * (g.2 / s) : ℂ) = -I * (a * g.1 + b * g.2) := by field_simp
  have w1 := hz g hg
  have w2 := hz _ hg'
  simp only at w2
  simp only [transformDisc, hn, hr]
  simp only [w1, w2, hzz]
  push_cast
  rw [e3]

theorem transformShape_scale {jv1 : ℝ → ℝ} {s : ℝ} (hs : 0 < s) (sh : Shape) {g : R2} (hg : ClearOf g)
    (hg' : ClearOf (g.1 / s, g.2 / s)) (sigma : ℝ) :
    transformShape jv1 (sh.scale s) (g.1 / s, g.2 / s) (s ^ 2 * sigma) = transformShape jv1 sh g sigma := by
  cases sh with
  | rectangle a b c d => simp only [Shape.scale, transformShape, transformRectangle_scale hs]
  | disc a b r => exact transformDisc_scale hs a b r hg hg' sigma
  | ellipse => rfl

/-- Two expansions, the second on a lattice `s` times larger. -/
structure Enlarged (s : ℝ) (e e' : Expansion N) : Prop where
  pw : e'.pw = e.pw
  reciprocal : e'.reciprocal = ((e.reciprocal.1.1 / s, e.reciprocal.1.2 / s), (e.reciprocal.2.1 / s, e.reciprocal.2.2 / s))
  sigma : e'.sigma = s ^ 2 * e.sigma
  g : ∀ i, e'.g i = ((e.g i).1 / s, (e.g i).2 / s)

theorem enlarged_make {s : ℝ} (hs : 0 < s) {tag tag' : ℕ} {pw : ℕ × ℕ} {lat : R2 × R2}
    {e e' : Expansion (pw.1 * pw.2)} (h : Expansion.make tag pw lat = .ok e)
    (h' : Expansion.make tag' pw ((s * lat.1.1, s * lat.1.2), (s * lat.2.1, s * lat.2.2)) = .ok e') :
    Enlarged s e e' := by
  obtain ⟨-, -, b, hb, rfl⟩ := make_eq_ok.1 h
  obtain ⟨-, -, b', hb', rfl⟩ := make_eq_ok.1 h'
  obtain ⟨hd, rfl⟩ := reciproc_eq_ok.1 hb
  obtain ⟨-, rfl⟩ := reciproc_eq_ok.1 hb'
  have hd' : s * lat.1.1 * (s * lat.2.2) - s * lat.1.2 * (s * lat.2.1) =
      s ^ 2 * (lat.1.1 * lat.2.2 - lat.1.2 * lat.2.1) := by ring
  have key : ∀ x : ℝ, s * x * (2 * Real.pi / (s ^ 2 * (lat.1.1 * lat.2.2 - lat.1.2 * lat.2.1))) =
      x * (2 * Real.pi / (lat.1.1 * lat.2.2 - lat.1.2 * lat.2.1)) / s := by intro x; field_simp
  have key' : ∀ x : ℝ, -(s * x) * (2 * Real.pi / (s ^ 2 * (lat.1.1 * lat.2.2 - lat.1.2 * lat.2.1))) =
      -x * (2 * Real.pi / (lat.1.1 * lat.2.2 - lat.1.2 * lat.2.1)) / s := by intro x; field_simp
  refine ⟨rfl, ?_, ?_, fun i => ?_⟩
  · simp only [hd', key, key']
  · simp only [unitCellArea, hd', abs_mul]
    rw [abs_of_pos (by positivity : 0 < s ^ 2)]
  · simp only [hd', key, key']
    rw [← latticeVec_div]

theorem permittivity_scale {jv1 : ℝ → ℝ} {s : ℝ} (hs : 0 < s) {e e' : Expansion N} (he : Enlarged s e e')
    (hp : Periods e.reciprocal) (hp' : Periods e'.reciprocal) (h0 : e.pw.1 ≠ 0 ∧ e.pw.2 ≠ 0) {f : Form}
    {C C' : Matrix (Fin N) (Fin N) ℂ}
    (h : Permittivity jv1 e f C) (h' : Permittivity jv1 e' (f.scale s) C') : C' = C := by
  cases f with
  | uniform eps => exact Eq.trans h' (Eq.symm h)
  | fft a =>
    simp only [Form.scale, Permittivity, he.pw] at h h'
    ext r c
    rw [h, h']
  | analytical islands host =>
    simp only [Form.scale, Permittivity] at h h'
    obtain ⟨-, -, -, rfl⟩ := analyticalC_eq_ok h h0
    obtain ⟨-, -, -, rfl⟩ := analyticalC_eq_ok h' (by rw [he.pw]; exact h0)
    ext r c
    simp only [Matrix.of_apply, he.pw]
    generalize orderAt (triple e.pw.1, triple e.pw.2) (tablePos e.pw r c) = mn
    have c1 := hp mn
    have c2 := hp' mn
    simp only [islandCoef, List.map_map]
    congr 2
    refine List.map_congr_left fun i _ => ?_
    simp only [Function.comp, shapeValue]
    have c1' : ClearOf (latticeVec e.reciprocal mn) := by
      simpa only [latticeVec, mul_comm] using c1
    have c2' : ClearOf ((latticeVec e.reciprocal mn).1 / s, (latticeVec e.reciprocal mn).2 / s) := by
      rw [← latticeVec_div, ← he.reciprocal]
      simpa only [latticeVec, mul_comm] using c2
    rw [he.reciprocal, latticeVec_div, he.sigma, transformShape_scale hs _ c1' c2']
  | halfInc => exact absurd h (by simp [Permittivity])
  | halfTrn => exact absurd h (by simp [Permittivity])

/-! ### Shifted patterns -/

theorem roll_phase {n : ℕ} (s : ℕ) (m : ℤ) (x : ℕ) (hn : n ≠ 0) :
    exp (-(2 * Real.pi * I * (m * x / n))) =
      exp (-(2 * Real.pi * I * (m * s / n))) * exp (-(2 * Real.pi * I * (m * ((x + s * (n - 1)) % n : ℕ) / n))) := by
  have hn' : (n : ℂ) ≠ 0 := by exact_mod_cast hn
  have hq := Nat.mod_add_div (x + s * (n - 1)) n
  set q := (x + s * (n - 1)) / n
  set v := (x + s * (n - 1)) % n
  have hv : (v : ℂ) = x + s * (n - 1) - n * q := by
    have : (v : ℂ) + n * q = x + s * ((n - 1 : ℕ) : ℂ) := by exact_mod_cast hq
    rw [Nat.cast_sub (by omega)] at this
    push_cast at this
    linear_combination this
  rw [hv, ← exp_add]
  have : -(2 * Real.pi * I * (m * s / n)) + -(2 * Real.pi * I * (m * (x + s * (n - 1) - n * q) / n)) =
      -(2 * Real.pi * I * (m * x / n)) + ((m * (q - s) : ℤ) : ℂ) * (2 * Real.pi * I) := by
    push_cast
    field_simp
    ring
  rw [this, exp_add, exp_int_mul_two_pi_mul_I, mul_one]

theorem sum_roll {n : ℕ} (s : ℕ) (f : Fin n → ℂ) :
    ∑ x : Fin n, f ⟨(x + s * (n - 1)) % n, Nat.mod_lt _ (Nat.lt_of_le_of_lt (Nat.zero_le _) x.2)⟩ = ∑ x, f x := by
  cases n with
  | zero => simp
  | succ k =>
    rw [← Equiv.sum_comp (Equiv.addRight (Fin.ofNat (k + 1) (s * k))) f]
    refine Finset.sum_congr rfl fun x _ => ?_
    congr 1
    apply Fin.ext
    simp [Fin.val_add, Fin.ofNat]

theorem fourierCoef_roll (a : Arr2) (sx sy : ℕ) (m n : ℤ) :
    fourierCoef (a.roll sx sy) m n =
      exp (-(2 * Real.pi * I * (m * sx / a.nx + n * sy / a.ny))) * fourierCoef a m n := by
  obtain ⟨nx, ny, val⟩ := a
  unfold fourierCoef
  by_cases h1 : nx = 0
  · simp [Arr2.roll, h1]
  by_cases h2 : ny = 0
  · simp [Arr2.roll, h2]
  simp only [Arr2.roll]
  rw [mul_div_assoc']
  congr 1
  have split : ∀ u v : ℂ, exp (-(2 * Real.pi * I * (u + v))) = exp (-(2 * Real.pi * I * u)) * exp (-(2 * Real.pi * I * v)) := by
    intro u v; rw [← exp_add]; congr 1; ring
  have e : ∀ (x : Fin nx) (y : Fin ny), exp (-(2 * Real.pi * I * (m * ((x : ℕ) : ℂ) / nx + n * ((y : ℕ) : ℂ) / ny))) =
      exp (-(2 * Real.pi * I * (m * sx / nx + n * sy / ny))) *
        exp (-(2 * Real.pi * I * (m * ((x + sx * (nx - 1)) % nx : ℕ) / nx +
          n * ((y + sy * (ny - 1)) % ny : ℕ) / ny))) := by
    intro x y
    rw [split, split, split, roll_phase sx m x h1, roll_phase sy n y h2]
    ring
  conv_rhs =>
    rw [← sum_roll sx fun x => ∑ y, val x y * exp (-(2 * Real.pi * I * (m * ((x : ℕ) : ℂ) / nx + n * ((y : ℕ) : ℂ) / ny))),
      Finset.mul_sum]
  refine Finset.sum_congr rfl fun x _ => ?_
  conv_rhs => rw [← sum_roll sy, Finset.mul_sum]
  refine Finset.sum_congr rfl fun y _ => ?_
  rw [e]
  ring

theorem shiftPhase_norm (P : ℕ) (t : R2) (r : ℕ) : ‖shiftPhase P t r‖ = 1 := by
  rw [shiftPhase, show -(2 * Real.pi * I * (((r % P : ℕ) : ℂ) * t.1 + ((r / P : ℕ) : ℂ) * t.2)) =
    ((-(2 * Real.pi * (((r % P : ℕ) : ℝ) * t.1 + ((r / P : ℕ) : ℝ) * t.2)) : ℝ) : ℂ) * I by push_cast; ring,
    norm_exp_ofReal_mul_I]

theorem permittivity_shift {jv1 : ℝ → ℝ} {e : Expansion N} {t : R2} {f f' : Form} (hf : f.Shifted t f')
    {C C' : Matrix (Fin N) (Fin N) ℂ} (h : Permittivity jv1 e f C) (h' : Permittivity jv1 e f' C')
    (i j : Fin N) : C' i j * shiftPhase e.pw.1 t j = shiftPhase e.pw.1 t i * C i j := by
  cases f with
  | uniform eps =>
    simp only [Form.Shifted] at hf
    subst hf
    simp only [Permittivity] at h h'
    rw [h, h']
    by_cases hij : i = j
    · subst hij; rw [mul_comm]
    · simp [Matrix.one_apply_ne hij]
  | fft a =>
    obtain ⟨sx, sy, hx, hy, rfl⟩ := hf
    simp only [Permittivity] at h h'
    rw [h, h', fourierCoef_roll]
    by_cases h1 : a.nx = 0
    · simp [fourierCoef, h1]
    by_cases h2 : a.ny = 0
    · simp [fourierCoef, h2]
    have hx' : (sx : ℂ) = t.1 * a.nx := by exact_mod_cast congrArg (fun x : ℝ => (x : ℂ)) hx
    have hy' : (sy : ℂ) = t.2 * a.ny := by exact_mod_cast congrArg (fun x : ℝ => (x : ℂ)) hy
    have n1 : (a.nx : ℂ) ≠ 0 := by exact_mod_cast h1
    have n2 : (a.ny : ℂ) ≠ 0 := by exact_mod_cast h2
    rw [mul_right_comm]
    congr 1
    rw [shiftPhase, shiftPhase, ← exp_add, hx', hy']
    congr 1
    simp only [← Int.natCast_mod, ← Int.natCast_ediv, Int.cast_sub, Int.cast_natCast]
    field_simp
    ring
  | analytical => exact absurd hf (by simp [Form.Shifted])
  | halfInc => exact absurd hf (by simp [Form.Shifted])
  | halfTrn => exact absurd hf (by simp [Form.Shifted])

end Khepri
