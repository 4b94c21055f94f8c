import Verif.Model.Stack
import Verif.Lemmas.Redheffer

set_option linter.unusedSectionVars false

namespace Khepri

open Matrix

variable {n : Type} [Fintype n] [DecidableEq n]

theorem redheffer_dichotomy (A B : SMat n) :
    redheffer A B = .error .linAlg ∨ redheffer A B = .ok (redhefferVal A B) := by
  by_cases h : (1 - B.s11 * A.s22).det = 0
  · exact .inl (redheffer_err_of_det h)
  · exact .inr (redheffer_ok_of_det h)

theorem scatters_redheffer {A B S : SMat n} (h : redheffer A B = .ok S) (p q : Port n) :
    Scatters S p q ↔ ∃ m, Scatters A p m ∧ Scatters B m q := by
  obtain ⟨h', rfl⟩ := redheffer_eq_ok.1 h
  exact scatters_redhefferVal h' p q

theorem redheffer_assoc {A B C X Y : SMat n} (hX : redheffer A B = .ok X)
    (hY : redheffer B C = .ok Y) : redheffer X C = redheffer A Y := by
  obtain ⟨hab, rfl⟩ := redheffer_eq_ok.1 hX
  obtain ⟨hbc, rfl⟩ := redheffer_eq_ok.1 hY
  have hd := det_assoc hab hbc
  by_cases h : (1 - C.s11 * (redhefferVal A B).s22).det = 0
  · rw [redheffer_err_of_det h, redheffer_err_of_det]
    rw [h, mul_zero] at hd
    rcases mul_eq_zero.1 hd.symm with h' | h'
    · exact absurd h' hbc
    · exact h'
  · have h2 : (1 - (redhefferVal B C).s11 * A.s22).det ≠ 0 := by
      intro h0
      rw [h0, mul_zero] at hd
      rcases mul_eq_zero.1 hd with h' | h'
      · exact hab h'
      · exact h h'
    rw [redheffer_ok_of_det h, redheffer_ok_of_det h2, redhefferVal_assoc hab hbc h h2]

theorem redheffer_id_left (S : SMat n) : redheffer (scatteringIdentity n) S = .ok S := by
  rw [redheffer_eq_ok]
  refine ⟨by simp [scatteringIdentity], ?_⟩
  ext1 <;> simp [redhefferVal, scatteringIdentity]

theorem redheffer_id_right (S : SMat n) : redheffer S (scatteringIdentity n) = .ok S := by
  rw [redheffer_eq_ok]
  refine ⟨by simp [scatteringIdentity], ?_⟩
  ext1 <;> simp [redhefferVal, scatteringIdentity]

/-- Ordered cascade, from the left. -/
noncomputable def leftFold (P : SMat n) : List (SMat n) → Py (SMat n)
  | [] => .ok P
  | L :: l => redheffer P L >>= fun P' => leftFold P' l

/-- Ordered cascade, from the right, over the reversed list. -/
noncomputable def revFold (Q : SMat n) : List (SMat n) → Py (SMat n)
  | [] => .ok Q
  | L :: l => redheffer L Q >>= fun Q' => revFold Q' l

theorem bind_eq_ok {α β : Type} {x : Py α} {f : α → Py β} {b : β} :
    (x >>= f) = .ok b ↔ ∃ a, x = .ok a ∧ f a = .ok b := by
  cases x with
  | error e => simp [bind, Except.bind]
  | ok a => simp [bind, Except.bind]

theorem ok_bind {α β : Type} (a : α) (f : α → Py β) : ((Except.ok a : Py α) >>= f) = f a := rfl

theorem error_bind {α β : Type} (e : PyErr) (f : α → Py β) :
    ((Except.error e : Py α) >>= f) = .error e := rfl

theorem pyGet_eq_ok {α : Type} {l : List α} {i : ℕ} {a : α} :
    pyGet l i = .ok a ↔ l[i]? = some a := by
  unfold pyGet; split <;> simp_all

theorem stackForward_eq_ok {mask : List Bool} {l : List (SMat n)} : ∀ {i P r},
    stackForward mask i P l = .ok r ↔
      leftFold P l = .ok r.2 ∧ r.1.length = l.length ∧
      ∀ j < l.length, ∃ b X, mask[i + j]? = some b ∧ leftFold P (l.take (j + 1)) = .ok X ∧
        r.1[j]? = some (if b then some X else none) := by
  induction l with
  | nil =>
    intro i P r
    obtain ⟨r1, r2⟩ := r
    simp [stackForward, leftFold, and_comm, eq_comm]
  | cons L l ih =>
    intro i P r
    obtain ⟨r1, r2⟩ := r
    simp only [stackForward, bind_eq_ok, leftFold, pyGet_eq_ok, Prod.exists]
    constructor
    · rintro ⟨P', hP', m, hm, Sls, S, hrec, hr⟩
      simp only [pure, Except.pure, Except.ok.injEq, Prod.mk.injEq] at hr
      obtain ⟨rfl, rfl⟩ := hr
      obtain ⟨h1, h2, h3⟩ := ih.1 hrec
      refine ⟨⟨P', hP', h1⟩, by simpa using h2, ?_⟩
      rintro (_ | j) hj
      · exact ⟨m, P', by simpa using hm, by simp [leftFold, hP', ok_bind], by simp⟩
      · obtain ⟨b, X, hb, hX, hs⟩ := h3 j (by simpa using hj)
        refine ⟨b, X, by rw [← hb]; congr 1; omega, ?_, by simpa using hs⟩
        simp [leftFold, hP', ok_bind, hX]
    · rintro ⟨⟨P', hP', h1⟩, h2, h3⟩
      obtain ⟨m, X, hm, hX, hs⟩ := h3 0 (by simp)
      simp only [zero_add, List.take_succ_cons, List.take_zero, leftFold, bind_eq_ok,
        Except.ok.injEq] at hX
      obtain ⟨_, hX, rfl⟩ := hX
      rw [hP', Except.ok.injEq] at hX
      subst hX
      cases r1 with
      | nil => simp at h2
      | cons s Sls =>
        refine ⟨P', hP', m, by simpa using hm, Sls, r2, ?_, ?_⟩
        · rw [ih]
          refine ⟨h1, by simpa using h2, ?_⟩
          intro j hj
          obtain ⟨b, X, hb, hX, hs⟩ := h3 (j + 1) (by simpa using hj)
          refine ⟨b, X, by rw [← hb]; congr 1; omega, ?_, by simpa using hs⟩
          simpa [leftFold, hP', ok_bind] using hX
        · simp only [List.getElem?_cons_zero, Option.some.injEq] at hs
          rw [hs]; rfl

theorem stackBackward_eq_ok {mask : List Bool} {l : List (SMat n)} : ∀ {i Q r},
    stackBackward mask i Q l = .ok r ↔
      revFold Q l = .ok r.2 ∧ r.1.length = l.length ∧
      ∀ j < l.length, ∃ b X, mask[i + j]? = some b ∧ revFold Q (l.take j) = .ok X ∧
        r.1[j]? = some (if b then some X else none) := by
  induction l with
  | nil =>
    intro i P r
    obtain ⟨r1, r2⟩ := r
    simp [stackBackward, revFold, and_comm, eq_comm]
  | cons L l ih =>
    intro i Q r
    obtain ⟨r1, r2⟩ := r
    simp only [stackBackward, bind_eq_ok, revFold, pyGet_eq_ok, Prod.exists]
    constructor
    · rintro ⟨m, hm, P', hP', Sls, S, hrec, hr⟩
      simp only [pure, Except.pure, Except.ok.injEq, Prod.mk.injEq] at hr
      obtain ⟨rfl, rfl⟩ := hr
      obtain ⟨h1, h2, h3⟩ := ih.1 hrec
      refine ⟨⟨P', hP', h1⟩, by simpa using h2, ?_⟩
      rintro (_ | j) hj
      · exact ⟨m, Q, by simpa using hm, by simp [revFold], by simp⟩
      · obtain ⟨b, X, hb, hX, hs⟩ := h3 j (by simpa using hj)
        refine ⟨b, X, by rw [← hb]; congr 1; omega, ?_, by simpa using hs⟩
        simp [revFold, hP', ok_bind, hX]
    · rintro ⟨⟨P', hP', h1⟩, h2, h3⟩
      obtain ⟨m, X, hm, hX, hs⟩ := h3 0 (by simp)
      simp only [List.take_zero, revFold, Except.ok.injEq] at hX
      subst hX
      cases r1 with
      | nil => simp at h2
      | cons s Sls =>
        refine ⟨m, by simpa using hm, P', hP', Sls, r2, ?_, ?_⟩
        · rw [ih]
          refine ⟨h1, by simpa using h2, ?_⟩
          intro j hj
          obtain ⟨b, X, hb, hX, hs⟩ := h3 (j + 1) (by simpa using hj)
          refine ⟨b, X, by rw [← hb]; congr 1; omega, ?_, by simpa using hs⟩
          simpa [revFold, hP', ok_bind] using hX
        · simp only [List.getElem?_cons_zero, Option.some.injEq] at hs
          rw [hs]; rfl

theorem leftFold_append (P : SMat n) (l l' : List (SMat n)) :
    leftFold P (l ++ l') = leftFold P l >>= fun P' => leftFold P' l' := by
  induction l generalizing P with
  | nil => rfl
  | cons L l ih =>
    simp only [List.cons_append, leftFold]
    rcases redheffer_dichotomy P L with h | h <;> rw [h]
    · rfl
    · simp only [ok_bind, ih]

theorem revFold_append (P : SMat n) (l l' : List (SMat n)) :
    revFold P (l ++ l') = revFold P l >>= fun P' => revFold P' l' := by
  induction l generalizing P with
  | nil => rfl
  | cons L l ih =>
    simp only [List.cons_append, revFold]
    rcases redheffer_dichotomy L P with h | h <;> rw [h]
    · rfl
    · simp only [ok_bind, ih]

/-- prefix * suffix = total. -/
theorem leftFold_revFold {l : List (SMat n)} : ∀ {P Q T : SMat n},
    leftFold P l = .ok T → revFold (scatteringIdentity n) l.reverse = .ok Q →
    redheffer P Q = .ok T := by
  induction l with
  | nil =>
    intro P Q T h h'
    simp only [leftFold, Except.ok.injEq] at h
    simp only [List.reverse_nil, revFold, Except.ok.injEq] at h'
    subst h h'
    exact redheffer_id_right P
  | cons L l ih =>
    intro P Q T h h'
    simp only [leftFold, bind_eq_ok] at h
    obtain ⟨P', hP', h⟩ := h
    rw [List.reverse_cons, revFold_append, bind_eq_ok] at h'
    obtain ⟨Q', hQ', h'⟩ := h'
    simp only [revFold, bind_eq_ok, Except.ok.injEq] at h'
    obtain ⟨_, hQ, rfl⟩ := h'
    rw [← redheffer_assoc hP' hQ]
    exact ih h hQ'

theorem scatters_id {p q : Port n} : Scatters (scatteringIdentity n) p q ↔ p = q := by
  simp [Scatters, scatteringIdentity, Port.ext_iff, and_comm, eq_comm]

theorem chain_append {l l' : List (SMat n)} {p q : Port n} :
    Chain (l ++ l') p q ↔ ∃ m, Chain l p m ∧ Chain l' m q := by
  induction l generalizing p with
  | nil => simp [Chain]
  | cons L l ih =>
    simp only [List.cons_append, Chain, ih]
    constructor
    · rintro ⟨m, h, k, h1, h2⟩; exact ⟨k, ⟨m, h, h1⟩, h2⟩
    · rintro ⟨k, ⟨m, h, h1⟩, h2⟩; exact ⟨m, h, k, h1, h2⟩

theorem scatters_leftFold {l : List (SMat n)} : ∀ {P T : SMat n} (_ : leftFold P l = .ok T)
    {p q : Port n}, Scatters T p q ↔ ∃ m, Scatters P p m ∧ Chain l m q := by
  induction l with
  | nil =>
    intro P T h p q
    simp only [leftFold, Except.ok.injEq] at h
    simp [Chain, h]
  | cons L l ih =>
    intro P T h p q
    simp only [leftFold, bind_eq_ok] at h
    obtain ⟨P', hP', h⟩ := h
    rw [ih h]
    simp only [scatters_redheffer hP', Chain]
    constructor
    · rintro ⟨m, ⟨k, h1, h2⟩, h3⟩; exact ⟨k, h1, m, h2, h3⟩
    · rintro ⟨k, h1, m, h2, h3⟩; exact ⟨m, ⟨k, h1, h2⟩, h3⟩

theorem scatters_revFold {l : List (SMat n)} : ∀ {Q T : SMat n} (_ : revFold Q l = .ok T)
    {p q : Port n}, Scatters T p q ↔ ∃ m, Chain l.reverse p m ∧ Scatters Q m q := by
  induction l with
  | nil =>
    intro P T h p q
    simp only [revFold, Except.ok.injEq] at h
    simp [Chain, h]
  | cons L l ih =>
    intro Q T h p q
    simp only [revFold, bind_eq_ok] at h
    obtain ⟨P', hP', h⟩ := h
    rw [ih h]
    simp only [scatters_redheffer hP', List.reverse_cons, chain_append, Chain]
    constructor
    · rintro ⟨m, h1, k, h2, h3⟩; exact ⟨k, ⟨m, h1, k, h2, rfl⟩, h3⟩
    · rintro ⟨k, ⟨m, h1, k', h2, hk⟩, h3⟩; subst hk; exact ⟨m, h1, _, h2, h3⟩

theorem leftFold_take {l : List (SMat n)} {P T : SMat n} (h : leftFold P l = .ok T) (j : ℕ) :
    ∃ X, leftFold P (l.take j) = .ok X ∧ leftFold X (l.drop j) = .ok T := by
  rw [← List.take_append_drop j l, leftFold_append, bind_eq_ok] at h
  exact h

theorem revFold_take {l : List (SMat n)} {P T : SMat n} (h : revFold P l = .ok T) (j : ℕ) :
    ∃ X, revFold P (l.take j) = .ok X ∧ revFold X (l.drop j) = .ok T := by
  rw [← List.take_append_drop j l, revFold_append, bind_eq_ok] at h
  exact h

/-- Full characterisation of a successful `stack_layers` with a mask of the right length. -/
theorem stackLayers_eq_ok {layers : List (SMat n)} {mask : List Bool}
    (hm : mask.length = layers.length) (hne : layers ≠ []) {r : Stacked n} :
    stackLayers layers mask = .ok r ↔
      leftFold (scatteringIdentity n) layers = .ok r.Stot ∧
      r.Sls.length = layers.length ∧ r.Srs.length = layers.length ∧
      ∀ i (hi : i < layers.length),
        (∃ X, leftFold (scatteringIdentity n) (layers.take (i + 1)) = .ok X ∧
          r.Sls[i]? = some (if mask[i] then some X else none)) ∧
        (∃ X, revFold (scatteringIdentity n) (layers.drop (i + 1)).reverse = .ok X ∧
          r.Srs[i]? = some (if mask[i] ∨ i = 0 then some X else none)) := by
  obtain ⟨Sls, Srs, Stot⟩ := r
  have hlen : (layers.drop 1).reverse.length = layers.length - 1 := by simp
  have hpos : 0 < layers.length := List.length_pos_iff.2 hne
  have htake : ∀ k, k < layers.length → (layers.drop 1).reverse.take k =
      (layers.drop (layers.length - 1 - k + 1)).reverse := by
    intro k hk
    rw [List.take_reverse, List.drop_drop]
    congr 2
    simp; omega
  have hmask : ∀ k, k < layers.length - 1 → (mask.drop 1).reverse[k]? = mask[layers.length - 1 - k]? := by
    intro k hk
    rw [List.getElem?_reverse (by simp; omega), List.getElem?_drop]
    congr 1
    simp; omega
  simp only [stackLayers, bind_eq_ok, Prod.exists, stackForward_eq_ok, stackBackward_eq_ok]
  constructor
  · rintro ⟨Sls', Stot', ⟨f1, f2, f3⟩, Srs', Srev, ⟨b1, b2, b3⟩, hr⟩
    simp only [pure, Except.pure, Except.ok.injEq, Stacked.mk.injEq] at hr
    obtain ⟨rfl, rfl, rfl⟩ := hr
    refine ⟨f1, f2, by simp [b2]; omega, ?_⟩
    intro i hi
    constructor
    · obtain ⟨b, X, hb, hX, hs⟩ := f3 i hi
      refine ⟨X, hX, ?_⟩
      rw [zero_add, List.getElem?_eq_getElem (by omega), Option.some.injEq] at hb
      rw [hs, hb]
    · by_cases h0 : i = 0
      · subst h0
        exact ⟨Srev, b1, by simp⟩
      · obtain ⟨b, X, hb, hX, hs⟩ := b3 (layers.length - 1 - i) (by rw [hlen]; omega)
        refine ⟨X, ?_, ?_⟩
        · rw [htake _ (by omega)] at hX
          rwa [show layers.length - 1 - (layers.length - 1 - i) + 1 = i + 1 by omega] at hX
        · simp only [zero_add] at hb
          rw [hmask _ (by omega), show layers.length - 1 - (layers.length - 1 - i) = i by omega,
            List.getElem?_eq_getElem (by omega), Option.some.injEq] at hb
          rw [List.getElem?_reverse (by simp [b2]; omega), List.getElem?_append_left (by simp [b2]; omega)]
          simp only [List.length_append, b2, hlen, List.length_singleton, h0, or_false, hb]
          rw [show layers.length - 1 + 1 - 1 - i = layers.length - 1 - i by omega]
          exact hs
  · rintro ⟨f1, f2, f2', f3⟩
    obtain ⟨Srev, hrev, hs0⟩ := (f3 0 hpos).2
    refine ⟨Sls, Stot, ⟨f1, f2, ?_⟩, (Srs.drop 1).reverse, Srev, ⟨hrev, by simp [f2'], ?_⟩, ?_⟩
    · intro j hj
      obtain ⟨X, hX, hs⟩ := (f3 j hj).1
      exact ⟨mask[j], X, by simp, hX, hs⟩
    · intro j hj
      rw [hlen] at hj
      obtain ⟨X, hX, hs⟩ := (f3 (layers.length - 1 - j) (by omega)).2
      refine ⟨mask[layers.length - 1 - j], X, ?_, ?_, ?_⟩
      · rw [zero_add, hmask _ hj, List.getElem?_eq_getElem]
      · rw [htake _ (by omega)]; exact hX
      · have h0 : ¬ layers.length - 1 - j = 0 := by omega
        simp only [h0, or_false] at hs
        rw [List.getElem?_reverse (by simp [f2']; omega), List.getElem?_drop]
        simp only [List.length_drop, f2']
        rw [show 1 + (layers.length - 1 - 1 - j) = layers.length - 1 - j by omega]
        exact hs
    · cases Srs with
      | nil => simp at f2'; omega
      | cons s Srs =>
        simp only [List.getElem?_cons_zero, or_true, if_true, Option.some.injEq] at hs0
        simp [hs0, pure, Except.pure]

theorem stackForward_exists {mask : List Bool} {l : List (SMat n)} : ∀ {i P T},
    leftFold P l = .ok T → i + l.length ≤ mask.length →
    ∃ Sls, stackForward mask i P l = .ok (Sls, T) := by
  induction l with
  | nil =>
    intro i P T h _
    simp only [leftFold, Except.ok.injEq] at h
    exact ⟨[], by simp [stackForward, h]⟩
  | cons L l ih =>
    intro i P T h hl
    simp only [leftFold, bind_eq_ok] at h
    obtain ⟨P', hP', h⟩ := h
    simp only [List.length_cons] at hl
    obtain ⟨Sls, hS⟩ := ih (i := i + 1) h (by omega)
    have hg : pyGet mask i = .ok mask[i] := pyGet_eq_ok.2 (List.getElem?_eq_getElem (by omega))
    exact ⟨_, by simp only [stackForward, hP', hg, hS, ok_bind]; rfl⟩

theorem stackBackward_exists {mask : List Bool} {l : List (SMat n)} : ∀ {i Q T},
    revFold Q l = .ok T → i + l.length ≤ mask.length →
    ∃ Srs, stackBackward mask i Q l = .ok (Srs, T) := by
  induction l with
  | nil =>
    intro i P T h _
    simp only [revFold, Except.ok.injEq] at h
    exact ⟨[], by simp [stackBackward, h]⟩
  | cons L l ih =>
    intro i P T h hl
    simp only [revFold, bind_eq_ok] at h
    obtain ⟨P', hP', h⟩ := h
    simp only [List.length_cons] at hl
    obtain ⟨Sls, hS⟩ := ih (i := i + 1) h (by omega)
    have hg : pyGet mask i = .ok mask[i] := pyGet_eq_ok.2 (List.getElem?_eq_getElem (by omega))
    exact ⟨_, by simp only [stackBackward, hP', hg, hS, ok_bind]; rfl⟩

/-- `stack_layers` succeeds exactly when the cascades from the left and from the right exist. -/
theorem stackLayers_exists {layers : List (SMat n)} {mask : List Bool}
    (hm : mask.length = layers.length) (T : SMat n) :
    (∃ r, stackLayers layers mask = .ok r ∧ r.Stot = T) ↔
      leftFold (scatteringIdentity n) layers = .ok T ∧
      revFold (scatteringIdentity n) layers.reverse = .ok T := by
  cases layers with
  | nil =>
    simp only [stackLayers, stackForward, stackBackward, leftFold, revFold, List.reverse_nil,
      List.drop_nil, ok_bind, and_self]
    constructor
    · rintro ⟨r, hr, rfl⟩
      simp only [pure, Except.pure, Except.ok.injEq] at hr
      rw [← hr]
    · intro h
      exact ⟨_, rfl, by simpa using h⟩
  | cons L l =>
    constructor
    · rintro ⟨r, hr, rfl⟩
      obtain ⟨h1, -, -, h3⟩ := (stackLayers_eq_ok hm (by simp)).1 hr
      obtain ⟨X, hX, -⟩ := (h3 0 (by simp)).2
      simp only [zero_add, List.drop_succ_cons, List.drop_zero] at hX
      refine ⟨h1, ?_⟩
      rw [List.reverse_cons, revFold_append, hX, ok_bind]
      simp only [leftFold, redheffer_id_left, ok_bind] at h1
      simp only [revFold]
      rw [leftFold_revFold h1 hX]; rfl
    · rintro ⟨h1, h2⟩
      rw [List.reverse_cons, revFold_append, bind_eq_ok] at h2
      obtain ⟨X, hX, h2⟩ := h2
      obtain ⟨Sls, hS⟩ := stackForward_exists (mask := mask) (i := 0) h1 (by omega)
      obtain ⟨Srs, hR⟩ := stackBackward_exists (mask := (mask.drop 1).reverse) (i := 0) hX
        (by simp [hm])
      refine ⟨⟨Sls, (Srs ++ [some X]).reverse, T⟩, ?_, rfl⟩
      simp only [stackLayers, hS, ok_bind, List.drop_succ_cons, List.drop_zero, hR]
      rfl

theorem redheffer_flip (A B : SMat n) :
    redheffer B.flip A.flip = (redheffer A B).map SMat.flip := by
  by_cases h : (1 - B.s11 * A.s22).det = 0
  · have h' : (1 - A.flip.s11 * B.flip.s22).det = 0 := by
      simpa [SMat.flip, det_one_sub_comm A.s22 B.s11] using h
    rw [redheffer_err_of_det h, redheffer_err_of_det h']; rfl
  · have h' : (1 - A.flip.s11 * B.flip.s22).det ≠ 0 := by
      simpa [SMat.flip, det_one_sub_comm A.s22 B.s11] using h
    rw [redheffer_ok_of_det h, redheffer_ok_of_det h']; rfl

theorem flip_id : (scatteringIdentity n).flip = scatteringIdentity n := rfl

theorem flip_flip (S : SMat n) : S.flip.flip = S := rfl

theorem leftFold_flip (l : List (SMat n)) : ∀ P : SMat n,
    leftFold P.flip (l.map SMat.flip) = (revFold P l).map SMat.flip := by
  induction l with
  | nil => intro P; rfl
  | cons L l ih =>
    intro P
    simp only [List.map_cons, leftFold, revFold, redheffer_flip]
    rcases redheffer_dichotomy L P with h | h <;> rw [h]
    · rfl
    · simp only [Except.map, ok_bind, ih]

theorem revFold_flip (l : List (SMat n)) : ∀ P : SMat n,
    revFold P.flip (l.map SMat.flip) = (leftFold P l).map SMat.flip := by
  induction l with
  | nil => intro P; rfl
  | cons L l ih =>
    intro P
    simp only [List.map_cons, leftFold, revFold, redheffer_flip]
    rcases redheffer_dichotomy P L with h | h <;> rw [h]
    · rfl
    · simp only [Except.map, ok_bind, ih]

theorem map_eq_ok {α β : Type} {f : α → β} {x : Py α} {b : β} :
    x.map f = .ok b ↔ ∃ a, x = .ok a ∧ f a = b := by
  cases x <;> simp [Except.map]

theorem translate_eq_ok {Sl Sr : SMat n} {c : n → ℂ} {x : (n → ℂ) × (n → ℂ)} :
    translateModeAmplitudes Sl Sr c = .ok x ↔ (1 - Sl.s22 * Sr.s11).det ≠ 0 ∧
      x.1 = (1 - Sl.s22 * Sr.s11)⁻¹ *ᵥ (Sl.s21 *ᵥ c) ∧ x.2 = Sr.s11 *ᵥ x.1 := by
  obtain ⟨x1, x2⟩ := x
  simp only [translateModeAmplitudes, bind_eq_ok, npSolveVec_eq_ok]
  constructor
  · rintro ⟨a, ⟨h, rfl⟩, hx⟩
    simp only [pure, Except.pure, Except.ok.injEq, Prod.mk.injEq] at hx
    obtain ⟨rfl, rfl⟩ := hx
    exact ⟨h, rfl, rfl⟩
  · rintro ⟨h, rfl, rfl⟩
    exact ⟨_, ⟨h, rfl⟩, rfl⟩

end Khepri
