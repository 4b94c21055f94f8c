import Verif.Lemmas.Absorb
import Verif.Lemmas.Poynting

set_option linter.unusedSectionVars false

/-!
Interfaces between media of positive permittivity, and cascades of strictly absorbing layers: no junction
resonates, hence every linear system the solver meets is regular.
-/

namespace Khepri

open Matrix

section
variable {n : Type} [Fintype n] [DecidableEq n]

theorem redheffer_exists {A B : SMat n} (h : ∀ x, Circulates A B x → x = ⟨0, 0⟩) :
    ∃ S, redheffer A B = .ok S := by
  refine ⟨_, redheffer_eq_ok.2 ⟨?_, rfl⟩⟩
  intro hd
  obtain ⟨v, hv, h0⟩ := Matrix.exists_mulVec_eq_zero_iff.2 hd
  have := h ⟨A.s22 *ᵥ v, v⟩ ⟨rfl, by
    rw [sub_mulVec, one_mulVec, sub_eq_zero] at h0
    rw [mulVec_mulVec]; exact h0⟩
  simp only [Port.mk.injEq] at this
  exact hv this.2

theorem circulates_left {A B : SMat n} {x : Port n} (h : Circulates A B x) :
    Scatters A ⟨0, A.s12 *ᵥ x.bwd⟩ x := by
  refine ⟨by simp, ?_⟩
  rw [h.1]; simp

theorem circulates_right {A B : SMat n} {x : Port n} (h : Circulates A B x) :
    Scatters B x ⟨B.s21 *ᵥ x.fwd, 0⟩ := by
  refine ⟨?_, by simp⟩
  rw [h.2]; simp

variable (φ : Port n → ℝ)

/-- A left part of a device whose outgoing waves carry no power to the right. -/
def LeftPassive (S : SMat n) : Prop := ∀ p q, Scatters S p q → p.fwd = 0 → φ q ≤ 0

/-- ... and that carries some to the left unless there is no field. -/
def LeftStrict (S : SMat n) : Prop := ∀ p q, Scatters S p q → p.fwd = 0 → 0 ≤ φ q → q = ⟨0, 0⟩

def RightPassive (S : SMat n) : Prop := ∀ p q, Scatters S p q → q.bwd = 0 → 0 ≤ φ p

def RightStrict (S : SMat n) : Prop := ∀ p q, Scatters S p q → q.bwd = 0 → φ p ≤ 0 → p = ⟨0, 0⟩

/-- An element that takes power from every field. -/
def TakesPower (S : SMat n) : Prop := ∀ p q, Scatters S p q → φ p ≤ φ q → p = ⟨0, 0⟩ ∧ q = ⟨0, 0⟩

variable {φ}

theorem TakesPower.le {S : SMat n} (h : TakesPower φ S) {p q : Port n} (hs : Scatters S p q) : φ q ≤ φ p := by
  by_contra hlt
  obtain ⟨rfl, rfl⟩ := h p q hs (not_le.1 hlt).le
  exact hlt le_rfl

theorem leftFold_strict (hf : ∀ x, 0 ≤ φ ⟨x, 0⟩) (l : List (SMat n)) : ∀ P : SMat n,
    LeftPassive φ P → (∀ S ∈ l, TakesPower φ S) →
    ∃ T, leftFold P l = .ok T ∧ LeftPassive φ T ∧ (l ≠ [] → LeftStrict φ T) ∧ (l = [] → T = P) := by
  induction l with
  | nil => intro P hP _; exact ⟨P, rfl, hP, by simp, fun _ => rfl⟩
  | cons S l ih =>
    intro P hP hS
    have hS0 := hS S (by simp)
    obtain ⟨T, hT⟩ := redheffer_exists (A := P) (B := S) fun x hx => by
      have h1 := hP _ _ (circulates_left hx) rfl
      have h2 := circulates_right hx
      exact (hS0 _ _ h2 (h1.trans (hf _))).1
    have hTp : LeftPassive φ T := by
      intro p q hpq hp
      obtain ⟨m, h1, h2⟩ := (scatters_redheffer hT p q).1 hpq
      exact (hS0.le h2).trans (hP _ _ h1 hp)
    have hTs : LeftStrict φ T := by
      intro p q hpq hp hq
      obtain ⟨m, h1, h2⟩ := (scatters_redheffer hT p q).1 hpq
      exact (hS0 _ _ h2 ((hP _ _ h1 hp).trans hq)).2
    obtain ⟨T', h1, h2, h3, h4⟩ := ih T hTp fun S' hS' => hS S' (by simp [hS'])
    refine ⟨T', by simp only [leftFold, hT, ok_bind, h1], h2, fun _ => ?_, by simp⟩
    by_cases hl : l = []
    · rw [h4 hl]; exact hTs
    · exact h3 hl

theorem revFold_strict (hb : ∀ y, φ ⟨0, y⟩ ≤ 0) (l : List (SMat n)) : ∀ P : SMat n,
    RightPassive φ P → (∀ S ∈ l, TakesPower φ S) →
    ∃ T, revFold P l = .ok T ∧ RightPassive φ T ∧ (l ≠ [] → RightStrict φ T) ∧ (l = [] → T = P) := by
  induction l with
  | nil => intro P hP _; exact ⟨P, rfl, hP, by simp, fun _ => rfl⟩
  | cons S l ih =>
    intro P hP hS
    have hS0 := hS S (by simp)
    obtain ⟨T, hT⟩ := redheffer_exists (A := S) (B := P) fun x hx => by
      have h1 := hP _ _ (circulates_right hx) rfl
      have h2 := circulates_left hx
      exact (hS0 _ _ h2 ((hb _).trans h1)).2
    have hTp : RightPassive φ T := by
      intro p q hpq hp
      obtain ⟨m, h1, h2⟩ := (scatters_redheffer hT p q).1 hpq
      exact (hP _ _ h2 hp).trans (hS0.le h1)
    have hTs : RightStrict φ T := by
      intro p q hpq hp hq
      obtain ⟨m, h1, h2⟩ := (scatters_redheffer hT p q).1 hpq
      exact (hS0 _ _ h1 (hq.trans (hP _ _ h2 hp))).1
    obtain ⟨T', h1, h2, h3, h4⟩ := ih T hTp fun S' hS' => hS S' (by simp [hS'])
    refine ⟨T', by simp only [revFold, hT, ok_bind, h1], h2, fun _ => ?_, by simp⟩
    by_cases hl : l = []
    · rw [h4 hl]; exact hTs
    · exact h3 hl

/-- A stack of elements that all take power, between two passive ends, can be cascaded. -/
theorem stackLayers_strict (hb : ∀ y, φ ⟨0, y⟩ ≤ 0) (hf : ∀ x, 0 ≤ φ ⟨x, 0⟩) {Sr St : SMat n} {l : List (SMat n)}
    (hr : LeftPassive φ Sr) (ht : RightPassive φ St) (hl : ∀ S ∈ l, TakesPower φ S)
    (hj : ∀ x, Circulates Sr St x → x = ⟨0, 0⟩) {mask : List Bool}
    (hm : mask.length = (Sr :: (l ++ [St])).length) : ∃ st, stackLayers (Sr :: (l ++ [St])) mask = .ok st := by
  obtain ⟨T1, e1, p1, s1, z1⟩ := leftFold_strict hf l Sr hr hl
  obtain ⟨T2, e2, p2, s2, z2⟩ := revFold_strict hb l.reverse St ht fun S hS => hl S (by simpa using hS)
  obtain ⟨T, hT⟩ := redheffer_exists (A := T1) (B := St) fun x hx => by
    by_cases h0 : l = []
    · rw [z1 h0] at hx; exact hj x hx
    · exact s1 h0 _ _ (circulates_left hx) rfl (ht _ _ (circulates_right hx) rfl)
  obtain ⟨T', hT'⟩ := redheffer_exists (A := Sr) (B := T2) fun x hx => by
    by_cases h0 : l = []
    · rw [z2 (by simp [h0])] at hx; exact hj x hx
    · exact s2 (by simpa using h0) _ _ (circulates_right hx) rfl (hr _ _ (circulates_left hx) rfl)
  have hL : leftFold (scatteringIdentity n) (Sr :: (l ++ [St])) = .ok T := by
    simp only [leftFold, redheffer_id_left, ok_bind, leftFold_append, e1, hT]
  have hR : revFold (scatteringIdentity n) (Sr :: (l ++ [St])).reverse = .ok T' := by
    simp only [List.reverse_cons, List.reverse_append, List.reverse_nil, List.nil_append, List.cons_append,
      revFold, redheffer_id_right, ok_bind, revFold_append, e2, hT']
  have hE := leftFold_revFold hL hR
  rw [redheffer_id_left, Except.ok.injEq] at hE
  subst hE
  obtain ⟨st, h, -⟩ := (stackLayers_exists hm T').2 ⟨hL, hR⟩
  exact ⟨st, h⟩

end

section
variable {ι : Type} [Fintype ι] [DecidableEq ι]

theorem outerKz_im_nonpos (x : ℝ) : (outerKz x).im ≤ 0 := by
  unfold outerKz
  split_ifs with h
  · simp
  · simp [Real.sqrt_nonneg]

/-- Waves of two media both decay or travel away: their weighted wave numbers cannot cancel. -/
theorem outerKz_add_ne_zero {x y a b : ℝ} (hx : x ≠ 0) (ha : 0 < a) (hb : 0 < b) :
    (a : ℂ) * outerKz x + b * outerKz y ≠ 0 := by
  intro h
  have h1 := congrArg Complex.re h
  have h2 := congrArg Complex.im h
  simp only [Complex.add_re, Complex.add_im, Complex.re_ofReal_mul, Complex.im_ofReal_mul, Complex.zero_re,
    Complex.zero_im] at h1 h2
  have e1 := mul_nonneg ha.le (outerKz_re_nonneg x)
  have e2 := mul_nonneg hb.le (outerKz_re_nonneg y)
  have e3 := mul_nonpos_of_nonneg_of_nonpos ha.le (outerKz_im_nonpos x)
  have e4 := mul_nonpos_of_nonneg_of_nonpos hb.le (outerKz_im_nonpos y)
  have z1 : (outerKz x).re = 0 := by
    have : a * (outerKz x).re = 0 := by linarith
    exact (mul_eq_zero.1 this).resolve_left ha.ne'
  have z2 : (outerKz x).im = 0 := by
    have : a * (outerKz x).im = 0 := by linarith
    exact (mul_eq_zero.1 this).resolve_left ha.ne'
  exact hx (outerKz_eq_zero.1 (Complex.ext z1 z2))

/-- No surface wave runs along the interface of two media of positive permittivity. -/
theorem no_surface_wave {kx ky : ι → ℝ} {er et : ℝ} (her : 0 < er) (het : 0 < et)
    (hr : ∀ i, er - kx i ^ 2 - ky i ^ 2 ≠ 0) (ht : ∀ i, et - kx i ^ 2 - ky i ^ 2 ≠ 0) {x y : ι ⊕ ι → ℂ}
    (h : outerField kx ky er ⟨0, x⟩ = outerField kx ky et ⟨y, 0⟩) : x = 0 ∧ y = 0 := by
  have hE := congrArg Tang.E h
  have hH := congrArg Tang.H h
  simp only [outerField, zero_add, add_zero, Pi.zero_apply, sub_zero, zero_sub] at hE hH
  subst hE
  rw [maxwellQ_mulVec, maxwellQ_mulVec] at hH
  have key : ∀ i, x (.inl i) = 0 ∧ x (.inr i) = 0 := by
    intro i
    have h1 := congrFun hH (.inl i)
    have h2 := congrFun hH (.inr i)
    simp only [Sum.elim_inl, Sum.elim_inr, smul_mulVec, one_mulVec, Pi.smul_apply, smul_eq_mul, id] at h1 h2
    have z0 : outerKz (er - kx i ^ 2 - ky i ^ 2) ≠ 0 := fun h => hr i (outerKz_eq_zero.1 h)
    have w0 : outerKz (et - kx i ^ 2 - ky i ^ 2) ≠ 0 := fun h => ht i (outerKz_eq_zero.1 h)
    have zs := outerKz_sq (er - kx i ^ 2 - ky i ^ 2)
    have ws := outerKz_sq (et - kx i ^ 2 - ky i ^ 2)
    have s1 := outerKz_add_ne_zero (y := et - kx i ^ 2 - ky i ^ 2) (hr i) one_pos one_pos
    have s2 := outerKz_add_ne_zero (y := er - kx i ^ 2 - ky i ^ 2) (ht i) her het
    push_cast at zs ws s1
    generalize outerKz (er - kx i ^ 2 - ky i ^ 2) = z at *
    generalize outerKz (et - kx i ^ 2 - ky i ^ 2) = w at *
    generalize x (.inl i) = X at *
    generalize x (.inr i) = Y at *
    have hI : Complex.I ≠ 0 := Complex.I_ne_zero
    field_simp at h1 h2
    have hD : ((ky i : ℂ) * X - kx i * Y) = 0 := by
      have : (1 * z + 1 * w) * (z * w) * ((ky i : ℂ) * X - kx i * Y) = 0 := by
        linear_combination (w * ((ky i : ℂ) * X - kx i * Y)) * zs + (z * ((ky i : ℂ) * X - kx i * Y)) * ws
          - (kx i : ℂ) * h1 - (ky i : ℂ) * h2
      exact (mul_eq_zero.1 this).resolve_left (mul_ne_zero s1 (mul_ne_zero z0 w0))
    constructor
    · have : ((er : ℂ) * w + et * z) * X = 0 := by
        linear_combination -h2 + (w + z) * ky i * hD
      exact (mul_eq_zero.1 this).resolve_left s2
    · have : ((er : ℂ) * w + et * z) * Y = 0 := by
        linear_combination h1 - (w + z) * kx i * hD
      exact (mul_eq_zero.1 this).resolve_left s2
  have : x = 0 := by
    funext i; rcases i with i | i
    · exact (key i).1
    · exact (key i).2
  exact ⟨this, this⟩

end

end Khepri
