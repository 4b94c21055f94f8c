import Verif.Lemmas.Stack
import Mathlib.LinearAlgebra.UnitaryGroup

/-!
# Properties C01–C06, C13, C14: cascading S-matrices
-/

namespace Khepri

open Matrix

variable {n : Type} [Fintype n] [DecidableEq n]

/-! ### C01 -/

/-- **C01.** If `redheffer_product(SA, SB)` returns `S`, then `S` relates the outer amplitudes exactly
when there are amplitudes between the two elements satisfying both, and `S` is the only such matrix. -/
theorem C01_cascade_exact {SA SB S : SMat n} (h : redheffer SA SB = .ok S) :
    (∀ p q, Scatters S p q ↔ ∃ m, Scatters SA p m ∧ Scatters SB m q) ∧
    ∀ S' : SMat n, (∀ p q, Scatters S' p q ↔ ∃ m, Scatters SA p m ∧ Scatters SB m q) → S' = S :=
  ⟨scatters_redheffer h, fun _ h' => SMat.ext_scatters fun p q hpq =>
    (scatters_redheffer h p q).2 ((h' p q).1 hpq)⟩

/-- A 1×1 S-matrix. -/
def smat1 (a b c d : ℂ) : SMat Unit :=
  ⟨.of fun _ _ => a, .of fun _ _ => b, .of fun _ _ => c, .of fun _ _ => d⟩

/-- Non-vacuity of C01: two partially reflecting elements. -/
example : ∃ S, redheffer (smat1 (1/2) (1/2) (1/2) (1/2)) (smat1 (1/2) (1/2) (1/2) (1/2)) = .ok S :=
  ⟨_, redheffer_ok_of_det (by simp [smat1, Matrix.det_unique, Matrix.mul_apply]; norm_num)⟩

/-! ### C02 -/

/-- **C02.** `redheffer_product` raises exactly when a non-zero wave can circulate between the two
elements with nothing coming in from outside; the error is `LinAlgError`. -/
theorem C02_cascade_fails_iff_resonance (SA SB : SMat n) (e : PyErr) :
    redheffer SA SB = .error e ↔
      e = .linAlg ∧ ∃ x : Port n, (x.fwd ≠ 0 ∨ x.bwd ≠ 0) ∧ Circulates SA SB x := by
  have key : (1 - SB.s11 * SA.s22).det = 0 ↔
      ∃ x : Port n, (x.fwd ≠ 0 ∨ x.bwd ≠ 0) ∧ Circulates SA SB x := by
    rw [← Matrix.exists_mulVec_eq_zero_iff]
    constructor
    · rintro ⟨v, hv, h⟩
      refine ⟨⟨SA.s22 *ᵥ v, v⟩, .inr hv, rfl, ?_⟩
      rw [sub_mulVec, one_mulVec, sub_eq_zero] at h
      rw [mulVec_mulVec]; exact h
    · rintro ⟨x, hx, h1, h2⟩
      refine ⟨x.bwd, ?_, ?_⟩
      · rcases hx with hx | hx
        · intro h0; apply hx; rw [h1, h0, mulVec_zero]
        · exact hx
      · rw [sub_mulVec, one_mulVec, ← mulVec_mulVec, ← h1, ← h2, sub_self]
  rw [← key]
  by_cases h : (1 - SB.s11 * SA.s22).det = 0
  · simp [redheffer_err_of_det h, h, eq_comm]
  · simp [redheffer_ok_of_det h, h]

/-- **C02**, second half: the two internal linear systems are singular together. -/
theorem C02_both_systems_singular_together (SA SB : SMat n) :
    (∃ x, npSolve (1 - SB.s11 * SA.s22) SB.s11 = .ok x) ↔
    (∃ x, npSolve (1 - SA.s22 * SB.s11) SA.s21 = .ok x) := by
  simp only [npSolve_eq_ok, exists_and_left, exists_eq, and_true, det_one_sub_comm SB.s11]

/-- Both outcomes of C02 occur: a perfect cavity resonates. -/
example : redheffer (smat1 1 0 0 1) (smat1 1 0 0 1) = .error .linAlg :=
  redheffer_err_of_det (by simp [smat1, Matrix.det_unique, Matrix.mul_apply])

/-! ### C03 -/

/-- **C03.** Bracketing does not matter: whenever the two inner cascades exist, the two bracketings
give the same outcome (the same matrix, or both raise). -/
theorem C03_cascade_assoc {A B C X Y : SMat n} (hX : redheffer A B = .ok X)
    (hY : redheffer B C = .ok Y) : redheffer X C = redheffer A Y :=
  redheffer_assoc hX hY

/-- C03 in the form "if `A*B`, `B*C` and `(A*B)*C` return, so does `A*(B*C)`, with the same value",
and conversely. -/
theorem C03_cascade_assoc_ok {A B C X Y S : SMat n} (hX : redheffer A B = .ok X)
    (hY : redheffer B C = .ok Y) : redheffer X C = .ok S ↔ redheffer A Y = .ok S := by
  rw [redheffer_assoc hX hY]

/-- Non-vacuity of C03: three partially reflecting elements. -/
example : ∃ X Y S, redheffer (smat1 0 1 1 (1/2)) (smat1 (1/2) 0 0 (1/2)) = .ok X ∧
    redheffer (smat1 (1/2) 0 0 (1/2)) (smat1 (1/2) 1 1 0) = .ok Y ∧
    redheffer X (smat1 (1/2) 1 1 0) = .ok S := by
  refine ⟨_, _, _, redheffer_ok_of_det ?_, redheffer_ok_of_det ?_, redheffer_ok_of_det ?_⟩ <;>
  simp [smat1, Matrix.det_unique, Matrix.mul_apply, redhefferVal] <;> norm_num

/-- The hypothesis that both inner cascades exist cannot be dropped from C03: here `A*B` raises
although `A*(B*C)` returns a value. -/
theorem C03_inner_cascade_needed : ∃ A B C Y S : SMat Unit, redheffer A B = .error .linAlg ∧
    redheffer B C = .ok Y ∧ redheffer A Y = .ok S := by
  refine ⟨smat1 0 1 1 1, smat1 1 1 1 0, smat1 1 1 1 0, _, _, redheffer_err_of_det ?_,
    redheffer_ok_of_det ?_, redheffer_ok_of_det ?_⟩ <;>
  simp [smat1, Matrix.det_unique, Matrix.mul_apply, redhefferVal]

/-! ### C04 -/

/-- **C04.** `scattering_identity` is neutral on both sides and the cascade never raises. -/
theorem C04_identity_neutral (S : SMat n) :
    redheffer (scatteringIdentity n) S = .ok S ∧ redheffer S (scatteringIdentity n) = .ok S :=
  ⟨redheffer_id_left S, redheffer_id_right S⟩

/-- **C04**, physical meaning: the identity element is transparent. -/
theorem C04_identity_transparent (p q : Port n) : Scatters (scatteringIdentity n) p q ↔ p = q :=
  scatters_id

/-! ### C05 -/

/-- **C05.** For a non-empty stack and a mask of the same length, when `stack_layers` succeeds:
the total matrix is the ordered chain of the layers; entry `i` of the two lists is the chain of the
layers up to and including `i`, respectively after `i`, exactly where requested (`mask[i]`, plus `i = 0`
in the second list), `None` elsewhere; and prefix and suffix cascade to the total. -/
theorem C05_stack_layers {layers : List (SMat n)} {mask : List Bool}
    (hm : mask.length = layers.length) (hne : layers ≠ []) {r : Stacked n}
    (h : stackLayers layers mask = .ok r) :
    (∀ p q, Scatters r.Stot p q ↔ Chain layers p q) ∧
    r.Sls.length = layers.length ∧ r.Srs.length = layers.length ∧
    ∀ i (hi : i < layers.length),
      (mask[i] = true → ∃ Sl, r.Sls[i]? = some (some Sl) ∧
        ∀ p q, Scatters Sl p q ↔ Chain (layers.take (i + 1)) p q) ∧
      (mask[i] = false → r.Sls[i]? = some none) ∧
      (mask[i] = true ∨ i = 0 → ∃ Sr, r.Srs[i]? = some (some Sr) ∧
        ∀ p q, Scatters Sr p q ↔ Chain (layers.drop (i + 1)) p q) ∧
      (¬ (mask[i] = true ∨ i = 0) → r.Srs[i]? = some none) ∧
      (∀ Sl Sr, r.Sls[i]? = some (some Sl) → r.Srs[i]? = some (some Sr) →
        redheffer Sl Sr = .ok r.Stot) := by
  obtain ⟨h1, h2, h3, h4⟩ := (stackLayers_eq_ok hm hne).1 h
  refine ⟨?_, h2, h3, ?_⟩
  · intro p q
    rw [scatters_leftFold h1]
    simp [scatters_id]
  · intro i hi
    obtain ⟨⟨X, hX, hs⟩, ⟨Y, hY, ht⟩⟩ := h4 i hi
    refine ⟨?_, ?_, ?_, ?_, ?_⟩
    · intro hmi
      refine ⟨X, by rw [hs, if_pos hmi], fun p q => ?_⟩
      rw [scatters_leftFold hX]; simp [scatters_id]
    · intro hmi
      rw [hs]; simp [hmi]
    · intro hmi
      refine ⟨Y, by rw [ht, if_pos hmi], fun p q => ?_⟩
      rw [scatters_revFold hY]; simp [scatters_id]
    · intro hmi
      rw [ht, if_neg hmi]
    · intro Sl Sr hl hr
      rw [hs, Option.some.injEq] at hl
      rw [ht, Option.some.injEq] at hr
      split_ifs at hl hr
      simp only [Option.some.injEq] at hl hr
      subst hl hr
      obtain ⟨Z, hZ, hT⟩ := leftFold_take h1 (i + 1)
      rw [hX, Except.ok.injEq] at hZ
      subst hZ
      exact leftFold_revFold hT hY

/-- **C05**, existence: with a mask of the right length `stack_layers` can only fail by a resonance
(`LinAlgError`) of one of the cascades. -/
theorem C05_only_linAlg {layers : List (SMat n)} {mask : List Bool}
    (hm : mask.length = layers.length) {e : PyErr} (h : stackLayers layers mask = .error e) :
    e = .linAlg := by
  have ff : ∀ (l : List (SMat n)) i P e, i + l.length ≤ mask.length →
      stackForward mask i P l = .error e → e = .linAlg := by
    intro l
    induction l with
    | nil => intro i P e _ h; simp [stackForward] at h
    | cons L l ih =>
      intro i P e hl h
      simp only [List.length_cons] at hl
      have hg : pyGet mask i = .ok mask[i] := pyGet_eq_ok.2 (List.getElem?_eq_getElem (by omega))
      simp only [stackForward, hg] at h
      rcases redheffer_dichotomy P L with h' | h' <;> rw [h'] at h
      · rw [error_bind, Except.error.injEq] at h; exact h.symm
      · simp only [ok_bind] at h
        cases hrec : stackForward mask (i + 1) (redhefferVal P L) l with
        | error e' =>
          rw [hrec, error_bind, Except.error.injEq] at h
          subst h
          exact ih (i + 1) _ _ (by omega) hrec
        | ok v => rw [hrec] at h; simp [ok_bind, pure, Except.pure] at h
  have fb : ∀ (mask : List Bool) (l : List (SMat n)) i P e, i + l.length ≤ mask.length →
      stackBackward mask i P l = .error e → e = .linAlg := by
    intro mask l
    induction l with
    | nil => intro i P e _ h; simp [stackBackward] at h
    | cons L l ih =>
      intro i P e hl h
      simp only [List.length_cons] at hl
      have hg : pyGet mask i = .ok mask[i] := pyGet_eq_ok.2 (List.getElem?_eq_getElem (by omega))
      simp only [stackBackward, hg, ok_bind] at h
      rcases redheffer_dichotomy L P with h' | h' <;> rw [h'] at h
      · rw [error_bind, Except.error.injEq] at h; exact h.symm
      · simp only [ok_bind] at h
        cases hrec : stackBackward mask (i + 1) (redhefferVal L P) l with
        | error e' =>
          rw [hrec, error_bind, Except.error.injEq] at h
          subst h
          exact ih (i + 1) _ _ (by omega) hrec
        | ok v => rw [hrec] at h; simp [ok_bind, pure, Except.pure] at h
  unfold stackLayers at h
  cases h1 : stackForward mask 0 (scatteringIdentity n) layers with
  | error e' =>
    rw [h1, error_bind, Except.error.injEq] at h
    subst h
    exact ff _ _ _ _ (by omega) h1
  | ok v =>
    rw [h1] at h
    simp only [ok_bind] at h
    cases h2 : stackBackward (mask.drop 1).reverse 0 (scatteringIdentity n) (layers.drop 1).reverse with
    | error e' =>
      rw [h2, error_bind, Except.error.injEq] at h
      subst h
      exact fb _ _ _ _ _ (by simp [hm]) h2
    | ok v => rw [h2] at h; simp [ok_bind, pure, Except.pure] at h

/-- Non-vacuity of C05: a stack of any number of transparent layers. -/
example (k : ℕ) : ∃ r, stackLayers (List.replicate k (scatteringIdentity n)) (List.replicate k true) =
    .ok r := by
  have : ∀ k, leftFold (scatteringIdentity n) (List.replicate k (scatteringIdentity n)) =
      .ok (scatteringIdentity n) := by
    intro k
    induction k with
    | zero => rfl
    | succ k ih => simp only [List.replicate_succ, leftFold, redheffer_id_left, ok_bind, ih]
  have h2 : ∀ k, revFold (scatteringIdentity n) (List.replicate k (scatteringIdentity n)) =
      .ok (scatteringIdentity n) := by
    intro k
    induction k with
    | zero => rfl
    | succ k ih => simp only [List.replicate_succ, revFold, redheffer_id_left, ok_bind, ih]
  obtain ⟨r, hr, -⟩ := (stackLayers_exists (mask := List.replicate k true)
    (layers := List.replicate k (scatteringIdentity n)) (by simp) _).2
    ⟨this k, by rw [List.reverse_replicate]; exact h2 k⟩
  exact ⟨r, hr⟩

/-! ### C06 -/

/-- **C06.** For a device excited from the left by `c1p`: whenever the full stack's matrix exists,
`translate_mode_amplitudes(Sl, Sr, c1p, …)` succeeds, and its result is the unique pair of
amplitudes between the two halves compatible with both, the outer outgoing amplitudes being those
of the full stack. -/
theorem C06_interior_amplitudes {Sl Sr Stot : SMat n} (h : redheffer Sl Sr = .ok Stot) (c1p : n → ℂ) :
    ∃ x, translateModeAmplitudes Sl Sr c1p = .ok x ∧
      ∀ (p m q : Port n), p.fwd = c1p → q.bwd = 0 →
        ((Scatters Sl p m ∧ Scatters Sr m q) ↔
          (m = ⟨x.1, x.2⟩ ∧ p.bwd = Stot.s11 *ᵥ c1p ∧ q.fwd = Stot.s21 *ᵥ c1p)) := by
  obtain ⟨hd, rfl⟩ := redheffer_eq_ok.1 h
  have hd' : (1 - Sl.s22 * Sr.s11).det ≠ 0 := by rwa [det_one_sub_comm]
  refine ⟨((1 - Sl.s22 * Sr.s11)⁻¹ *ᵥ (Sl.s21 *ᵥ c1p),
    Sr.s11 *ᵥ ((1 - Sl.s22 * Sr.s11)⁻¹ *ᵥ (Sl.s21 *ᵥ c1p))), translate_eq_ok.2 ⟨hd', rfl, rfl⟩, ?_⟩
  intro p m q hp hq
  have uniq : ∀ m : Port n, (m.fwd = Sl.s21 *ᵥ p.fwd + Sl.s22 *ᵥ m.bwd ∧
      m.bwd = Sr.s11 *ᵥ m.fwd + Sr.s12 *ᵥ q.bwd) ↔
      m = ⟨(1 - Sl.s22 * Sr.s11)⁻¹ *ᵥ (Sl.s21 *ᵥ c1p),
        Sr.s11 *ᵥ ((1 - Sl.s22 * Sr.s11)⁻¹ *ᵥ (Sl.s21 *ᵥ c1p))⟩ := by
    intro m
    rw [hp, hq]
    simp only [mulVec_zero, add_zero]
    constructor
    · rintro ⟨h1, h2⟩
      have : m.fwd = (1 - Sl.s22 * Sr.s11)⁻¹ *ᵥ (Sl.s21 *ᵥ c1p) := by
        rw [← mulVec_eq_iff hd', sub_mulVec, one_mulVec, ← mulVec_mulVec, ← h2, sub_eq_iff_eq_add]
        exact h1
      rw [Port.ext_iff]
      exact ⟨this, by rw [h2, this]⟩
    · rintro rfl
      refine ⟨?_, rfl⟩
      have := (mulVec_eq_iff hd' (x := (1 - Sl.s22 * Sr.s11)⁻¹ *ᵥ (Sl.s21 *ᵥ c1p))
        (y := Sl.s21 *ᵥ c1p)).2 rfl
      rw [sub_mulVec, one_mulVec, sub_eq_iff_eq_add, ← mulVec_mulVec] at this
      exact this
  constructor
  · rintro ⟨hA, hB⟩
    have hS : Scatters (redhefferVal Sl Sr) p q := (scatters_redhefferVal hd p q).2 ⟨m, hA, hB⟩
    refine ⟨(uniq m).1 ⟨hA.2, hB.1⟩, ?_, ?_⟩
    · rw [hS.1, hp, hq]; simp
    · rw [hS.2, hp, hq]; simp
  · rintro ⟨hm, hp', hq'⟩
    have hS : Scatters (redhefferVal Sl Sr) p q :=
      ⟨by rw [hp', hp, hq]; simp, by rw [hq', hp, hq]; simp⟩
    obtain ⟨m', h1, h2⟩ := (scatters_redhefferVal hd p q).1 hS
    have : m' = m := by rw [hm]; exact (uniq m').1 ⟨h1.2, h2.1⟩
    exact this ▸ ⟨h1, h2⟩

/-- **C06** for a stack: with the matrices kept by `stack_layers`, the amplitudes returned for a
retained layer `i` are the unique ones on the plane after layer `i` in the chain of all layers. -/
theorem C06_stack_interior {layers : List (SMat n)} {mask : List Bool}
    (hm : mask.length = layers.length) {r : Stacked n} (h : stackLayers layers mask = .ok r)
    {i : ℕ} (hi : i < layers.length) (hmi : mask[i] = true) (c1p : n → ℂ) :
    ∃ Sl Sr x, r.Sls[i]? = some (some Sl) ∧ r.Srs[i]? = some (some Sr) ∧
      translateModeAmplitudes Sl Sr c1p = .ok x ∧
      ∀ (p m q : Port n), p.fwd = c1p → q.bwd = 0 →
        ((Chain (layers.take (i + 1)) p m ∧ Chain (layers.drop (i + 1)) m q) ↔
          (m = ⟨x.1, x.2⟩ ∧ p.bwd = r.Stot.s11 *ᵥ c1p ∧ q.fwd = r.Stot.s21 *ᵥ c1p)) := by
  have hne : layers ≠ [] := by rintro rfl; simp at hi
  obtain ⟨-, -, -, h4⟩ := C05_stack_layers hm hne h
  obtain ⟨a, -, b, -, c⟩ := h4 i hi
  obtain ⟨Sl, hl, hl'⟩ := a hmi
  obtain ⟨Sr, hr, hr'⟩ := b (.inl hmi)
  obtain ⟨x, hx, hx'⟩ := C06_interior_amplitudes (c Sl Sr hl hr) c1p
  refine ⟨Sl, Sr, x, hl, hr, hx, ?_⟩
  intro p m q hp hq
  rw [← hl', ← hr']
  exact hx' p m q hp hq

/-- Non-vacuity of C06. -/
example : ∃ S, redheffer (smat1 (1/2) (1/2) (1/2) (1/2)) (smat1 (1/3) 1 1 (1/3)) = .ok S :=
  ⟨_, redheffer_ok_of_det (by simp [smat1, Matrix.det_unique, Matrix.mul_apply]; norm_num)⟩

/-! ### C13 -/

/-- **C13.** Turning a stack around (reversing the order and flipping each element) flips its total
matrix, and one exists iff the other does. -/
theorem C13_mirror {layers : List (SMat n)} {mask mask' : List Bool}
    (hm : mask.length = layers.length) (hm' : mask'.length = layers.length) (T : SMat n) :
    (∃ r, stackLayers (layers.map SMat.flip).reverse mask' = .ok r ∧ r.Stot = T.flip) ↔
    (∃ r, stackLayers layers mask = .ok r ∧ r.Stot = T) := by
  rw [stackLayers_exists hm, stackLayers_exists (by simpa using hm'), List.reverse_reverse,
    ← List.map_reverse]
  have h1 := leftFold_flip layers.reverse (scatteringIdentity n)
  have h2 := revFold_flip layers (scatteringIdentity n)
  rw [flip_id] at h1 h2
  rw [h1, h2, map_eq_ok, map_eq_ok]
  constructor
  · rintro ⟨⟨a, ha, ha'⟩, b, hb, hb'⟩
    have : ∀ a : SMat n, a.flip = T.flip → a = T := fun a h => by
      rw [← flip_flip a, h, flip_flip]
    rw [this a ha'] at ha; rw [this b hb'] at hb
    exact ⟨hb, ha⟩
  · rintro ⟨h1, h2⟩
    exact ⟨⟨T, h2, rfl⟩, T, h1, rfl⟩

/-- **C13** for layers that look the same from both sides (as every matrix of `build_scatmat` does,
see `C13_layers_symmetric`): reversing the stack exchanges left and right. -/
theorem C13_mirror_symmetric_layers {layers : List (SMat n)} {mask mask' : List Bool}
    (hm : mask.length = layers.length) (hm' : mask'.length = layers.length)
    (hsym : ∀ S ∈ layers, S.flip = S) (T : SMat n) :
    (∃ r, stackLayers layers.reverse mask' = .ok r ∧ r.Stot = T.flip) ↔
    (∃ r, stackLayers layers mask = .ok r ∧ r.Stot = T) := by
  rw [← C13_mirror hm hm' T]
  have : layers.map SMat.flip = layers := by
    conv_rhs => rw [← List.map_id layers]
    exact List.map_congr_left hsym
  rw [this]

/-- Every S-matrix returned by `build_scatmat` is symmetric under exchange of its sides. -/
theorem C13_layers_symmetric {W V W0 V0 : Matrix n n ℂ} {lam : n → ℂ} {d k0 : ℝ} {S : SMat n}
    (h : buildScatmat W V W0 V0 lam d k0 = .ok S) : S.flip = S := by
  simp only [buildScatmat, bind_eq_ok] at h
  obtain ⟨_, _, _, _, _, _, S11, _, _, _, S12, _, h⟩ := h
  simp only [pure, Except.pure, Except.ok.injEq] at h
  subst h
  rfl

/-! ### C14 -/

/-- **C14.** A stack of lossless elements is lossless, in any common normalisation `w` of the
power carried by each mode. -/
theorem C14_lossless_stack {w : n → ℝ} {layers : List (SMat n)} {mask : List Bool}
    (hm : mask.length = layers.length) {r : Stacked n} (h : stackLayers layers mask = .ok r)
    (hl : ∀ S ∈ layers, Lossless w S) : Lossless w r.Stot := by
  obtain ⟨h1, -⟩ := (stackLayers_exists hm r.Stot).1 ⟨r, h, rfl⟩
  intro p q hpq
  rw [scatters_leftFold h1] at hpq
  simp only [scatters_id, exists_eq_left'] at hpq
  clear h1 h hm
  induction layers generalizing p with
  | nil => simp only [Chain] at hpq; subst hpq; ring
  | cons L l ih =>
    obtain ⟨m, h1, h2⟩ := hpq
    have e1 := hl L (by simp) p m h1
    have e2 := ih (fun S hS => hl S (by simp [hS])) m h2
    linarith

/-- **C14.** A stack of passive elements is passive. -/
theorem C14_passive_stack {w : n → ℝ} {layers : List (SMat n)} {mask : List Bool}
    (hm : mask.length = layers.length) {r : Stacked n} (h : stackLayers layers mask = .ok r)
    (hl : ∀ S ∈ layers, Passive w S) : Passive w r.Stot := by
  obtain ⟨h1, -⟩ := (stackLayers_exists hm r.Stot).1 ⟨r, h, rfl⟩
  intro p q hpq
  rw [scatters_leftFold h1] at hpq
  simp only [scatters_id, exists_eq_left'] at hpq
  clear h1 h hm
  induction layers generalizing p with
  | nil => simp only [Chain] at hpq; subst hpq; linarith
  | cons L l ih =>
    obtain ⟨m, h1, h2⟩ := hpq
    have e1 := hl L (by simp) p m h1
    have e2 := ih (fun S hS => hl S (by simp [hS])) m h2
    linarith

end Khepri
