import Verif.Model.Volume
import Verif.Spec.Volume
import Verif.Lemmas.FieldsReal
import Verif.Props.Expansion
import Mathlib.Analysis.SpecialFunctions.Integrals.Basic

/-!
Volume fields, Parseval's identity over a unit cell.
-/

set_option linter.unusedSectionVars false

namespace Khepri

open Matrix

variable {N : ℕ}

theorem fieldsXY_eq (c : Crystal N) (pts : List (ℝ × ℝ)) (z : ℝ) (inc : Option (Vec2 N × Vec2 N)) (kpo : Option (ℂ × ℂ)) :
    c.fieldsXY pts z inc kpo = (do
      pyCheck (c.stacked.isSome = true) .assertion
      let src ← Crystal.attr c.source
      let EH ← Crystal.orDefault inc c.sourceFields
      let _ ← c.expansion.kVectors (kpo.getD src.kp) src.wavelength 1
      let f ← c.fourierFields z EH.1 EH.2
      return pts.map fun q => pointOf c.expansion (kpo.getD src.kp) f q.1 q.2) := by
  unfold Crystal.fieldsXY
  refine bind_congr fun _ => bind_congr fun src => bind_congr fun EH => ?_
  cases hk : c.expansion.kVectors (kpo.getD src.kp) src.wavelength 1 with
  | error e => rfl
  | ok r =>
    obtain ⟨kx, ky, kz⟩ := r
    obtain ⟨hw, h1, h2, -⟩ := kVectors_eq_ok.1 hk
    simp only at h1 h2
    simp only [ok_bind]
    refine bind_congr fun f => ?_
    have h0 : ((2 * Real.pi / src.wavelength : ℝ) : ℂ) ≠ 0 := by
      have : (2 * Real.pi / src.wavelength : ℝ) ≠ 0 := div_ne_zero (by positivity) hw
      exact_mod_cast this
    have e1 : (fun i => ((2 * Real.pi / src.wavelength : ℝ) : ℂ) * kx i) =
        fun i => (kpo.getD src.kp).1 + ((c.expansion.g i).1 : ℂ) := by
      funext i; rw [h1, mul_div_cancel₀ _ h0]
    have e2 : (fun i => ((2 * Real.pi / src.wavelength : ℝ) : ℂ) * ky i) =
        fun i => (kpo.getD src.kp).2 + ((c.expansion.g i).2 : ℂ) := by
      funext i; rw [h2, mul_div_cancel₀ _ h0]
    simp only [e1, e2, pointOf]

theorem fieldsXY_eq_ok {c : Crystal N} {pts : List (ℝ × ℝ)} {z : ℝ} {inc : Option (Vec2 N × Vec2 N)}
    {kpo : Option (ℂ × ℂ)} {P : List Crystal.Point6} :
    c.fieldsXY pts z inc kpo = .ok P ↔ c.stacked.isSome = true ∧ ∃ src EH f,
      c.source = some src ∧ Crystal.orDefault inc c.sourceFields = .ok EH ∧ src.wavelength ≠ 0 ∧
      c.fourierFields z EH.1 EH.2 = .ok f ∧
      P = pts.map fun q => pointOf c.expansion (kpo.getD src.kp) f q.1 q.2 := by
  rw [fieldsXY_eq]
  simp only [bind_eq_ok, pyCheck_eq_ok, Crystal.attr_eq_ok]
  constructor
  · rintro ⟨_, h1, src, h2, EH, h3, k, h4, f, h5, h6⟩
    simp only [pure, Except.pure, Except.ok.injEq] at h6
    exact ⟨h1, src, EH, f, h2, h3, (kVectors_eq_ok.1 h4).1, h5, h6.symm⟩
  · rintro ⟨h1, src, EH, f, h2, h3, hw, h5, rfl⟩
    exact ⟨(), h1, src, h2, EH, h3, ⟨_, _, _⟩, kVectors_eq_ok.2 ⟨hw, rfl, rfl, rfl⟩, f, h5, rfl⟩

theorem integral_cis_int (m : ℤ) (c : ℂ) :
    ∫ s in (0 : ℝ)..1, c * Complex.exp (Complex.I * (2 * Real.pi * m * s)) = if m = 0 then c else 0 := by
  split_ifs with h
  · subst h; simp
  · rw [intervalIntegral.integral_const_mul]
    have h0 : (Complex.I * (2 * Real.pi * m) : ℂ) ≠ 0 := by
      simp [Real.pi_ne_zero, h]
    have : ∀ s : ℝ, Complex.exp (Complex.I * (2 * Real.pi * m * s)) =
        Complex.exp (Complex.I * (2 * Real.pi * m) * s) := fun s => by ring_nf
    simp only [this]
    rw [integral_exp_mul_complex h0]
    have e1 : Complex.exp (Complex.I * (2 * Real.pi * m) * ((1 : ℝ) : ℂ)) = 1 := by
      rw [Complex.ofReal_one, mul_one, Complex.exp_eq_one_iff]
      exact ⟨m, by ring⟩
    rw [e1]; simp

/-- Integral over the cell of one pair of orders. -/
theorem cellMean_cis {a b : ℝ × ℝ} {g : ℝ × ℝ} {m n : ℤ} (h1 : dot2 a g = 2 * Real.pi * m)
    (h2 : dot2 b g = 2 * Real.pi * n) (c : ℂ) :
    cellMean a b (fun x y => c * Complex.exp (Complex.I * (g.1 * x + g.2 * y))) = if m = 0 ∧ n = 0 then c else 0 := by
  unfold cellMean
  have e : ∀ s t : ℝ, c * Complex.exp (Complex.I * (g.1 * ((s * a.1 + t * b.1 : ℝ) : ℂ) + g.2 * ((s * a.2 + t * b.2 : ℝ) : ℂ))) =
      c * Complex.exp (Complex.I * (2 * Real.pi * m * s)) * Complex.exp (Complex.I * (2 * Real.pi * n * t)) := by
    intro s t
    rw [mul_assoc, ← Complex.exp_add]
    congr 2
    have k1 : (a.1 : ℂ) * g.1 + a.2 * g.2 = 2 * Real.pi * m := by
      have := congrArg (fun r : ℝ => (r : ℂ)) h1
      simpa [dot2] using this
    have k2 : (b.1 : ℂ) * g.1 + b.2 * g.2 = 2 * Real.pi * n := by
      have := congrArg (fun r : ℝ => (r : ℂ)) h2
      simpa [dot2] using this
    push_cast
    linear_combination Complex.I * s * k1 + Complex.I * t * k2
  simp only [e, integral_cis_int]
  by_cases hn : n = 0
  · simp only [hn, if_true, and_true, integral_cis_int]
  · simp [hn]

theorem cellMean_sum {ι : Type} (s : Finset ι) (a b : ℝ × ℝ) (f : ι → ℝ → ℝ → ℂ)
    (hf : ∀ i ∈ s, Continuous fun p : ℝ × ℝ => f i p.1 p.2) :
    cellMean a b (fun x y => ∑ i ∈ s, f i x y) = ∑ i ∈ s, cellMean a b (f i) := by
  unfold cellMean
  have h1 : ∀ i ∈ s, Continuous fun p : ℝ × ℝ => f i (p.1 * a.1 + p.2 * b.1) (p.1 * a.2 + p.2 * b.2) := fun i hi =>
    (hf i hi).comp (g := fun p : ℝ × ℝ => f i p.1 p.2)
      (f := fun p : ℝ × ℝ => (p.1 * a.1 + p.2 * b.1, p.1 * a.2 + p.2 * b.2)) (by fun_prop)
  rw [← intervalIntegral.integral_finsetSum]
  · refine intervalIntegral.integral_congr fun u _ => ?_
    refine intervalIntegral.integral_finsetSum fun i hi => ?_
    exact ((h1 i hi).comp (f := fun t : ℝ => (u, t)) (by fun_prop)).intervalIntegrable _ _
  · intro i hi
    exact (intervalIntegral.continuous_parametric_intervalIntegral_of_continuous'
      (f := fun u t => f i (u * a.1 + t * b.1) (u * a.2 + t * b.2)) (h1 i hi) 0 1).intervalIntegrable _ _

/-- The orders of an expansion are distinct points of the dual lattice. -/
theorem make_dual {tag : ℕ} {pw : ℕ × ℕ} {lat : R2 × R2} {e : Expansion (pw.1 * pw.2)}
    (h : Expansion.make tag pw lat = .ok e) : ∃ o : Fin (pw.1 * pw.2) → ℤ × ℤ, Function.Injective o ∧
      ∀ i, dot2 lat.1 (e.g i) = 2 * Real.pi * (o i).1 ∧ dot2 lat.2 (e.g i) = 2 * Real.pi * (o i).2 := by
  obtain ⟨h1, h2, ⟨b1, b2⟩, hb, rfl⟩ := make_eq_ok.1 h
  obtain ⟨⟨e11, e12, e21, e22⟩, -⟩ := C22_duality hb
  refine ⟨fun i => orderAt pw i, fun i j hij => Fin.ext (orderAt_injOn hij), fun i => ⟨?_, ?_⟩⟩
  · simp only [dot2, latticeVec] at *
    linear_combination ((orderAt pw i).1 : ℝ) * e11 + ((orderAt pw i).2 : ℝ) * e12
  · simp only [dot2, latticeVec] at *
    linear_combination ((orderAt pw i).1 : ℝ) * e21 + ((orderAt pw i).2 : ℝ) * e22

/-- Parseval's identity over the unit cell for the orders of an expansion. -/
theorem cellMean_parseval {e : Expansion N} {a b : R2} {o : Fin N → ℤ × ℤ} (hi : Function.Injective o)
    (ho : ∀ i, dot2 a (e.g i) = 2 * Real.pi * (o i).1 ∧ dot2 b (e.g i) = 2 * Real.pi * (o i).2)
    (k : ℝ × ℝ) (u v : Fin N → ℂ) :
    cellMean a b (fun x y =>
      idft u (fun i => (k.1 : ℂ) + ((e.g i).1 : ℂ)) (fun i => (k.2 : ℂ) + ((e.g i).2 : ℂ)) x y *
      star (idft v (fun i => (k.1 : ℂ) + ((e.g i).1 : ℂ)) (fun i => (k.2 : ℂ) + ((e.g i).2 : ℂ)) x y)) =
    ∑ i, u i * star (v i) := by
  have hx : ∀ x y : ℝ, idft u (fun i => (k.1 : ℂ) + ((e.g i).1 : ℂ)) (fun i => (k.2 : ℂ) + ((e.g i).2 : ℂ)) x y *
      star (idft v (fun i => (k.1 : ℂ) + ((e.g i).1 : ℂ)) (fun i => (k.2 : ℂ) + ((e.g i).2 : ℂ)) x y) =
      ∑ i, ∑ j, (u i * star (v j)) *
        Complex.exp (Complex.I * (((e.g i - e.g j).1 : ℝ) * x + ((e.g i - e.g j).2 : ℝ) * y)) := by
    intro x y
    simp only [idft]
    rw [star_sum, Finset.sum_mul_sum]
    refine Finset.sum_congr rfl fun i _ => Finset.sum_congr rfl fun j _ => ?_
    simp only [RCLike.star_def, map_mul, ← Complex.exp_conj, map_add, Complex.conj_I, Complex.conj_ofReal]
    rw [mul_mul_mul_comm, ← Complex.exp_add]
    congr 2
    simp only [Prod.fst_sub, Prod.snd_sub]
    push_cast; ring
  simp only [hx]
  rw [cellMean_sum]
  · refine Finset.sum_congr rfl fun i _ => ?_
    rw [cellMean_sum]
    · have hd : ∀ j, cellMean a b (fun x y => (u i * star (v j)) * Complex.exp (Complex.I *
          (((e.g i - e.g j).1 : ℝ) * x + ((e.g i - e.g j).2 : ℝ) * y))) =
          if i = j then u i * star (v j) else 0 := by
        intro j
        rw [cellMean_cis (m := (o i).1 - (o j).1) (n := (o i).2 - (o j).2)]
        · refine if_congr ?_ rfl rfl
          rw [← hi.eq_iff, Prod.ext_iff, sub_eq_zero, sub_eq_zero]
        · have h1 := (ho i).1
          have h2 := (ho j).1
          simp only [dot2, Prod.fst_sub, Prod.snd_sub] at *
          push_cast
          linear_combination h1 - h2
        · have h1 := (ho i).2
          have h2 := (ho j).2
          simp only [dot2, Prod.fst_sub, Prod.snd_sub] at *
          push_cast
          linear_combination h1 - h2
      simp only [hd, Finset.sum_ite_eq, Finset.mem_univ, if_true]
    · intro j _
      fun_prop
  · intro i _
    fun_prop

end Khepri
