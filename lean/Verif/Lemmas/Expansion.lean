import Verif.Lemmas.Py
import Verif.Lemmas.Modes
import Verif.Model.Sources

set_option linter.unusedSectionVars false

/-! # Lemmas on expansions -/

namespace Khepri

/-- Order listed at position `g`. -/
def orderAt (pw : ℕ × ℕ) (g : ℕ) : ℤ × ℤ :=
  (((g % pw.1 : ℕ) : ℤ) - ((pw.1 - 1) / 2 : ℕ), ((g / pw.1 : ℕ) : ℤ) - ((pw.2 - 1) / 2 : ℕ))

theorem generateExpansionIndices_eq {pw : ℕ × ℕ} (h1 : pw.1 % 2 = 1) (h2 : pw.2 % 2 = 1) :
    generateExpansionIndices pw = .ok ((List.range (pw.1 * pw.2)).map (orderAt pw)) := by
  simp only [generateExpansionIndices, pyCheck_ok h1, pyCheck_ok h2, ok_bind, pure, Except.pure,
    arangeSym]
  congr 1
  have e1 : 2 * ((pw.1 - 1) / 2) + 1 = pw.1 := by omega
  have e2 : 2 * ((pw.2 - 1) / 2) + 1 = pw.2 := by omega
  rw [e1, e2, List.flatMap_map]
  simp only [List.map_map, Function.comp_def]
  exact range_flatMap pw.1 pw.2 fun b a =>
    ((a : ℤ) - ((pw.1 - 1) / 2 : ℕ), (b : ℤ) - ((pw.2 - 1) / 2 : ℕ))

theorem generateExpansionIndices_even {pw : ℕ × ℕ} (h : pw.1 % 2 = 0 ∨ pw.2 % 2 = 0) :
    generateExpansionIndices pw = .error .assertion := by
  unfold generateExpansionIndices
  by_cases h1 : pw.1 % 2 = 1
  · rw [pyCheck_ok h1, ok_bind, pyCheck_err (by omega)]; rfl
  · rw [pyCheck_err h1]; rfl

theorem generateExpansionIndices_ok {pw : ℕ × ℕ} {l : List (ℤ × ℤ)}
    (h : generateExpansionIndices pw = .ok l) :
    pw.1 % 2 = 1 ∧ pw.2 % 2 = 1 ∧ l = (List.range (pw.1 * pw.2)).map (orderAt pw) := by
  by_cases h1 : pw.1 % 2 = 1
  · by_cases h2 : pw.2 % 2 = 1
    · rw [generateExpansionIndices_eq h1 h2, Except.ok.injEq] at h
      exact ⟨h1, h2, h.symm⟩
    · rw [generateExpansionIndices_even (by omega)] at h; simp at h
  · rw [generateExpansionIndices_even (by omega)] at h; simp at h

theorem orderAt_opposite {pw : ℕ × ℕ} (h1 : pw.1 % 2 = 1) (h2 : pw.2 % 2 = 1) {g : ℕ}
    (hg : g < pw.1 * pw.2) : orderAt pw (pw.1 * pw.2 - 1 - g) = -orderAt pw g := by
  obtain ⟨P, Q⟩ := pw
  simp only at *
  have hP : 0 < P := by omega
  have hr := Nat.mod_lt g hP
  have hq : g / P < Q := Nat.div_lt_of_lt_mul hg
  have key : P * Q - 1 - g = P * (Q - 1 - g / P) + (P - 1 - g % P) := by
    have h3 := Nat.div_add_mod g P
    obtain ⟨c, hc⟩ : ∃ c, Q = g / P + 1 + c := ⟨Q - 1 - g / P, by omega⟩
    obtain ⟨d, hd⟩ : ∃ d, P = g % P + 1 + d := ⟨P - 1 - g % P, by omega⟩
    have e1 : Q - 1 - g / P = c := by omega
    have e2 : P - 1 - g % P = d := by omega
    rw [e1, e2]
    have e3 : P * Q = P * (g / P) + P + P * c := by rw [hc]; ring
    omega
  have hm : (P * Q - 1 - g) % P = P - 1 - g % P := by
    rw [key, Nat.mul_add_mod, Nat.mod_eq_of_lt (by omega)]
  have hd : (P * Q - 1 - g) / P = Q - 1 - g / P := by
    have e : (P - 1 - g % P) / P = 0 := Nat.div_eq_of_lt (by omega)
    rw [key, Nat.mul_add_div hP, e, Nat.add_zero]
  simp only [orderAt, hm, hd, Prod.mk.injEq, Prod.neg_mk]
  omega

theorem orderAt_injOn {pw : ℕ × ℕ} {g g' : ℕ} (h : orderAt pw g = orderAt pw g') : g = g' := by
  simp only [orderAt, Prod.mk.injEq] at h
  rw [← Nat.div_add_mod g pw.1, ← Nat.div_add_mod g' pw.1]
  have e1 : g % pw.1 = g' % pw.1 := by omega
  have e2 : g / pw.1 = g' / pw.1 := by omega
  rw [e1, e2]

theorem orderAt_center {pw : ℕ × ℕ} (h1 : pw.1 % 2 = 1) (h2 : pw.2 % 2 = 1) :
    orderAt pw ((pw.1 * pw.2 - 1) / 2) = (0, 0) := by
  have hodd : (pw.1 * pw.2) % 2 = 1 := by rw [Nat.mul_mod, h1, h2]
  have e := orderAt_opposite h1 h2 (g := (pw.1 * pw.2 - 1) / 2) (by omega)
  have e' : pw.1 * pw.2 - 1 - (pw.1 * pw.2 - 1) / 2 = (pw.1 * pw.2 - 1) / 2 := by omega
  rw [e'] at e
  have a := congrArg Prod.fst e
  have b := congrArg Prod.snd e
  rw [Prod.fst_neg] at a
  rw [Prod.snd_neg] at b
  exact Prod.ext (by omega) (by omega)

theorem reciproc_eq_ok {a1 a2 : R2} {b : R2 × R2} : reciproc a1 a2 = .ok b ↔
    a1.1 * a2.2 - a1.2 * a2.1 ≠ 0 ∧
      b = ((a2.2 * (2 * Real.pi / (a1.1 * a2.2 - a1.2 * a2.1)),
            -a2.1 * (2 * Real.pi / (a1.1 * a2.2 - a1.2 * a2.1))),
           (-a1.2 * (2 * Real.pi / (a1.1 * a2.2 - a1.2 * a2.1)),
            a1.1 * (2 * Real.pi / (a1.1 * a2.2 - a1.2 * a2.1)))) := by
  unfold reciproc
  by_cases h : a1.1 * a2.2 - a1.2 * a2.1 = 0
  · simp [h, throw, throwThe, MonadExceptOf.throw, bind, Except.bind]
  · simp only [h, if_false, pure, Except.pure, bind, Except.bind, Except.ok.injEq]
    exact ⟨fun e => ⟨h, e.symm⟩, fun e => e.2.symm⟩

theorem make_eq_ok {tag : ℕ} {pw : ℕ × ℕ} {lat : R2 × R2} {e : Expansion (pw.1 * pw.2)} :
    Expansion.make tag pw lat = .ok e ↔ pw.1 % 2 = 1 ∧ pw.2 % 2 = 1 ∧ ∃ b,
      reciproc lat.1 lat.2 = .ok b ∧
      e = { tag := tag, pw := pw, hpw := rfl, reciprocal := b,
            g := fun i => latticeVec b (orderAt pw i), sigma := unitCellArea lat.1 lat.2 } := by
  simp only [Expansion.make, bind_eq_ok, pure, Except.pure, Except.ok.injEq]
  constructor
  · rintro ⟨b, hb, l, hl, rfl⟩
    obtain ⟨h1, h2, rfl⟩ := generateExpansionIndices_ok hl
    refine ⟨h1, h2, b, hb, ?_⟩
    congr 1
    funext i
    simp
  · rintro ⟨h1, h2, b, hb, rfl⟩
    refine ⟨b, hb, _, generateExpansionIndices_eq h1 h2, ?_⟩
    congr 1
    funext i
    simp

end Khepri

namespace Khepri

/-! ### Sums of expansions -/

theorem ofFn_flatMap_getD {M M' : ℕ} (f : Fin M → R2) (g : Fin M' → R2) (d : R2)
    (i : Fin M) (j : Fin M') :
    ((List.ofFn f).flatMap fun a => (List.ofFn g).map fun b => (b.1 + a.1, b.2 + a.2)).getD
      (i * M' + j) d = ((g j).1 + (f i).1, (g j).2 + (f i).2) := by
  have hM' : 0 < M' := lt_of_le_of_lt (Nat.zero_le _) j.2
  have e : ((List.ofFn f).flatMap fun a => (List.ofFn g).map fun b => (b.1 + a.1, b.2 + a.2)) =
      (List.range (M' * M)).map fun k =>
        (((List.ofFn g).getD (k % M') d).1 + ((List.ofFn f).getD (k / M') d).1,
         ((List.ofFn g).getD (k % M') d).2 + ((List.ofFn f).getD (k / M') d).2) := by
    rw [← range_flatMap M' M (fun b a =>
      (((List.ofFn g).getD a d).1 + ((List.ofFn f).getD b d).1,
       ((List.ofFn g).getD a d).2 + ((List.ofFn f).getD b d).2))]
    have hf : List.ofFn f = (List.range M).map fun b => (List.ofFn f).getD b d := by
      refine List.ext_getElem (by simp) fun k h1 h2 => ?_
      simp at h1
      simp [h1]
    have hg : List.ofFn g = (List.range M').map fun b => (List.ofFn g).getD b d := by
      refine List.ext_getElem (by simp) fun k h1 h2 => ?_
      simp at h1
      simp [h1]
    conv_lhs => rw [hf, hg]
    rw [List.flatMap_map]
    simp only [List.map_map, Function.comp_def]
  have hk : (i : ℕ) * M' + j < M' * M := by
    have := i.2; have := j.2
    calc (i : ℕ) * M' + j < i * M' + M' := by omega
      _ = (i + 1) * M' := by ring
      _ ≤ M * M' := Nat.mul_le_mul_right _ i.2
      _ = M' * M := Nat.mul_comm _ _
  have e1 : ((i : ℕ) * M' + j) % M' = j := by
    rw [Nat.mul_comm, Nat.mul_add_mod, Nat.mod_eq_of_lt j.2]
  have e2 : ((i : ℕ) * M' + j) / M' = i := by
    rw [Nat.mul_comm, Nat.mul_add_div hM', Nat.div_eq_of_lt j.2, Nat.add_zero]
  rw [e, List.getD_eq_getElem?_getD, List.getElem?_map, List.getElem?_range hk]
  simp [e1, e2]

theorem pair_lt {M : ℕ} (i j : Fin M) : (i : ℕ) * M + j < M * M := by
  have := i.2; have := j.2
  calc (i : ℕ) * M + j < i * M + M := by omega
    _ = (i + 1) * M := by ring
    _ ≤ M * M := Nat.mul_le_mul_right _ i.2

/-- Position of the pair `(i, j)` in the sum of two expansions. -/
def pairIdx {M : ℕ} (i j : Fin M) : Fin (M * M) := ⟨i * M + j, pair_lt i j⟩

theorem add_eq_ok {M : ℕ} {tag : ℕ} {l r : Expansion M} {se : SumExpansion M}
    (h : l.add tag r = .ok se) :
    l.pw.1 % 2 = 1 ∧ l.pw.2 % 2 = 1 ∧ se.lhs = l ∧ se.rhs = r ∧ se.exp.pw = (l.pw.1 ^ 2, l.pw.2 ^ 2) ∧
    ∀ i j, se.exp.g (pairIdx i j) = ((l.g i).1 + (r.g j).1, (l.g i).2 + (r.g j).2) := by
  simp only [Expansion.add, bind_eq_ok] at h
  obtain ⟨e, he, h⟩ := h
  rw [dif_pos trivial] at h
  simp only [pure, Except.pure, Except.ok.injEq] at h
  subst h
  obtain ⟨h1, h2, -⟩ := make_eq_ok.1 he
  refine ⟨?_, ?_, rfl, rfl, rfl, fun i j => ?_⟩
  · rcases Nat.mod_two_eq_zero_or_one l.pw.1 with h | h
    · simp [Nat.pow_mod, h] at h1
    · exact h
  · rcases Nat.mod_two_eq_zero_or_one l.pw.2 with h | h
    · simp [Nat.pow_mod, h] at h2
    · exact h
  · have := ofFn_flatMap_getD l.g r.g (0, 0) i j
    simp only [minkowskiColumns, pairIdx]
    rw [this, add_comm, add_comm (r.g j).2]

theorem default_reciproc : ∃ b, reciproc ((1, 0) : R2) (0, 1) = .ok b :=
  ⟨_, reciproc_eq_ok.2 ⟨by norm_num, rfl⟩⟩

theorem add_ok {M : ℕ} (tag : ℕ) (l r : Expansion M) (h1 : l.pw.1 % 2 = 1) (h2 : l.pw.2 % 2 = 1) :
    ∃ se, l.add tag r = .ok se := by
  obtain ⟨b, hb⟩ := default_reciproc
  have := (make_eq_ok (tag := tag) (pw := (l.pw.1 ^ 2, l.pw.2 ^ 2)) (lat := ((1, 0), (0, 1)))
    (e := _)).2 ⟨by simp [Nat.pow_mod, h1], by simp [Nat.pow_mod, h2], b, hb, rfl⟩
  simp only [Expansion.add, this, ok_bind]
  exact ⟨_, rfl⟩

/-- The specular order sits in the middle. -/
def Centered {N : ℕ} (e : Expansion N) : Prop :=
  N % 2 = 1 ∧ ∀ i : Fin N, (i : ℕ) = (N - 1) / 2 → e.g i = (0, 0)

theorem centered_make {tag : ℕ} {pw : ℕ × ℕ} {lat : R2 × R2} {e : Expansion (pw.1 * pw.2)}
    (h : Expansion.make tag pw lat = .ok e) : Centered e := by
  obtain ⟨h1, h2, b, -, rfl⟩ := make_eq_ok.1 h
  refine ⟨by rw [Nat.mul_mod, h1, h2], fun i hi => ?_⟩
  simp only [hi, orderAt_center h1 h2, latticeVec]
  simp

theorem centered_rotate {N : ℕ} {e : Expansion N} (h : Centered e) (a : ℝ) : Centered (e.rotate a) :=
  ⟨h.1, fun i hi => by simp [Expansion.rotate, rotate2, h.2 i hi]⟩

theorem center_pair {M : ℕ} (hM : M % 2 = 1) : (M * M - 1) / 2 = (M - 1) / 2 * M + (M - 1) / 2 := by
  obtain ⟨c, rfl⟩ : ∃ c, M = 2 * c + 1 := ⟨M / 2, by omega⟩
  have e : (2 * c + 1) * (2 * c + 1) - 1 = 2 * (c * (2 * c + 1) + c) := by
    have : (2 * c + 1) * (2 * c + 1) = 2 * (c * (2 * c + 1) + c) + 1 := by ring
    omega
  have e2 : (2 * c + 1 - 1) / 2 = c := by omega
  rw [e, e2]; omega

theorem centered_add {M : ℕ} {tag : ℕ} {l r : Expansion M} {se : SumExpansion M}
    (h : l.add tag r = .ok se) (hl : Centered l) (hr : Centered r) : Centered se.exp := by
  refine ⟨by rw [Nat.mul_mod, hl.1], fun i hi => ?_⟩
  have hM := hl.1
  have hc : (M - 1) / 2 < M := by omega
  have : i = pairIdx ⟨(M - 1) / 2, hc⟩ ⟨(M - 1) / 2, hc⟩ := by
    apply Fin.ext; rw [hi, center_pair hM]; rfl
  rw [this, (add_eq_ok h).2.2.2.2.2, hl.2 _ rfl, hr.2 _ rfl]
  simp

/-! ### Polarisations of a real wave vector -/

open Complex

theorem C3.norm_ofReal (x y z : ℝ) : C3.norm ⟨x, y, z⟩ = Real.sqrt (x ^ 2 + y ^ 2 + z ^ 2) := by
  simp [C3.norm]

theorem polarisations_small {k : C3} (h : Real.sqrt (‖k.x‖ ^ 2 + ‖k.y‖ ^ 2) < 1 / 10 ^ 8) :
    polarisations k = .ok (⟨1, 0, 0⟩, ⟨0, 1, 0⟩) := by
  unfold polarisations
  simp only [abs_of_nonneg (Real.sqrt_nonneg _)]
  rw [if_pos h]; rfl

theorem C3.unit_ofReal {x y z n : ℝ} (hn : 0 < n) (h : x ^ 2 + y ^ 2 + z ^ 2 = n ^ 2) :
    C3.unit ⟨x, y, z⟩ = .ok ⟨((x / n : ℝ) : ℂ), ((y / n : ℝ) : ℂ), ((z / n : ℝ) : ℂ)⟩ := by
  have hnorm : C3.norm ⟨x, y, z⟩ = n := by rw [C3.norm_ofReal, h, Real.sqrt_sq hn.le]
  unfold C3.unit
  rw [if_neg (by rw [hnorm]; exact hn.ne'), hnorm]
  simp only [C3.smul, Except.ok.injEq, C3.mk.injEq]
  have : (n : ℂ) ≠ 0 := by exact_mod_cast hn.ne'
  push_cast
  refine ⟨?_, ?_, ?_⟩ <;> field_simp

theorem polarisations_large {a b c s K : ℝ} (hs : s ^ 2 = a ^ 2 + b ^ 2) (hs0 : 1 / 10 ^ 8 ≤ s)
    (hK : K ^ 2 = s ^ 2 + c ^ 2) (hK0 : 0 < K) :
    polarisations ⟨a, b, c⟩ =
      .ok (⟨((-b / s : ℝ) : ℂ), ((a / s : ℝ) : ℂ), ((0 : ℝ) : ℂ)⟩,
           ⟨((a * c / (s * K) : ℝ) : ℂ), ((b * c / (s * K) : ℝ) : ℂ), ((-s / K : ℝ) : ℂ)⟩) := by
  have hs1 : 0 < s := lt_of_lt_of_le (by positivity) hs0
  have hp : Real.sqrt (‖(a : ℂ)‖ ^ 2 + ‖(b : ℂ)‖ ^ 2) = s := by
    simp only [Complex.norm_real, Real.norm_eq_abs, sq_abs]
    rw [← hs, Real.sqrt_sq hs1.le]
  unfold polarisations
  simp only [hp, abs_of_nonneg hs1.le]
  rw [if_neg (not_lt.2 hs0), C3.unit_ofReal hK0 (by rw [hK, hs]), ok_bind]
  have e1 : C3.smul (-1) (C3.cross ⟨0, 0, -1⟩
      ⟨((a / K : ℝ) : ℂ), ((b / K : ℝ) : ℂ), ((c / K : ℝ) : ℂ)⟩) =
      ⟨((-b / K : ℝ) : ℂ), ((a / K : ℝ) : ℂ), ((0 : ℝ) : ℂ)⟩ := by
    simp only [C3.smul, C3.cross, C3.mk.injEq]
    push_cast
    refine ⟨?_, ?_, ?_⟩ <;> ring
  rw [e1, C3.unit_ofReal (n := s / K) (by positivity)
    (by rw [div_pow, div_pow, div_pow, hs]; ring), ok_bind]
  have e2 : -b / K / (s / K) = -b / s := by field_simp
  have e3 : a / K / (s / K) = a / s := by field_simp
  have e4 : (0 : ℝ) / (s / K) = 0 := by simp
  rw [e2, e3, e4]
  have e5 : C3.cross ⟨((-b / s : ℝ) : ℂ), ((a / s : ℝ) : ℂ), ((0 : ℝ) : ℂ)⟩
      ⟨((a / K : ℝ) : ℂ), ((b / K : ℝ) : ℂ), ((c / K : ℝ) : ℂ)⟩ =
      ⟨((a * c / (s * K) : ℝ) : ℂ), ((b * c / (s * K) : ℝ) : ℂ), ((-s / K : ℝ) : ℂ)⟩ := by
    have h1 : (s : ℂ) ≠ 0 := by exact_mod_cast hs1.ne'
    have h2 : (K : ℂ) ≠ 0 := by exact_mod_cast hK0.ne'
    have h3 : (s : ℂ) ^ 2 = (a : ℂ) ^ 2 + (b : ℂ) ^ 2 := by exact_mod_cast hs
    simp only [C3.cross, C3.mk.injEq]
    push_cast
    refine ⟨?_, ?_, ?_⟩
    · field_simp; ring
    · field_simp; ring
    · field_simp; linear_combination (1 : ℂ) * h3
  have hn1 : (a * c / (s * K)) ^ 2 + (b * c / (s * K)) ^ 2 + (-s / K) ^ 2 = (1 : ℝ) ^ 2 := by
    have hs' := hs1.ne'
    have hK' := hK0.ne'
    field_simp
    rw [hK]
    linear_combination (-c ^ 2) * hs
  rw [e5, C3.unit_ofReal one_pos hn1, ok_bind]
  simp only [div_one]; rfl

theorem incident_eq_ok {N : ℕ} {te tm : ℂ} {k : C3} {v : Vec2 N} : incident N te tm k = .ok v ↔
    0 < N ∧ polNorm te tm ≠ 0 ∧ ∃ aTE aTM, polarisations k = .ok (aTE, aTM) ∧
      v = Sum.elim
        (fun i : Fin N => (if (i : ℕ) = (N - 1) / 2 then 1 else 0) *
          (te / polNorm te tm * aTE.x + tm / polNorm te tm * aTM.x))
        (fun i : Fin N => (if (i : ℕ) = (N - 1) / 2 then 1 else 0) *
          (te / polNorm te tm * aTE.y + tm / polNorm te tm * aTM.y)) := by
  unfold incident polVector
  by_cases hp : polNorm te tm = 0
  · simp [hp, throw, throwThe, MonadExceptOf.throw, bind, Except.bind]
  · simp only [hp, if_false, bind_eq_ok, pure, Except.pure, Except.ok.injEq, pyCheck_eq_ok, ne_eq,
      not_false_eq_true, true_and]
    constructor
    · rintro ⟨p, ⟨⟨aTE, aTM⟩, h1, rfl⟩, u, hN, rfl⟩
      exact ⟨hN, aTE, aTM, h1, rfl⟩
    · rintro ⟨hN, aTE, aTM, h1, rfl⟩
      exact ⟨_, ⟨(aTE, aTM), h1, rfl⟩, (), hN, rfl⟩

theorem polNorm_sq (te tm : ℂ) : polNorm te tm ^ 2 = ‖te‖ ^ 2 + ‖tm‖ ^ 2 :=
  Real.sq_sqrt (by positivity)

theorem polNorm_smul (c te tm : ℂ) : polNorm (c * te) (c * tm) = ‖c‖ * polNorm te tm := by
  have : (‖c * te‖ ^ 2 + ‖c * tm‖ ^ 2) = ‖c‖ ^ 2 * (‖te‖ ^ 2 + ‖tm‖ ^ 2) := by
    rw [norm_mul, norm_mul]; ring
  rw [polNorm, this, Real.sqrt_mul (by positivity), Real.sqrt_sq (norm_nonneg _)]; rfl

end Khepri
