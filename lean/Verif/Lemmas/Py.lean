import Verif.Lemmas.Stack

set_option linter.unusedSectionVars false

/-! # Python-level helper lemmas -/

namespace Khepri

theorem pyFinM_eq_ok {α : Type} : ∀ {n : ℕ} {f : Fin n → Py α} {v : Fin n → α},
    pyFinM f = .ok v ↔ ∀ i, f i = .ok (v i)
  | 0, f, v => by
    simp only [pyFinM, Except.ok.injEq]
    exact ⟨fun _ i => i.elim0, fun _ => funext fun i => i.elim0⟩
  | n + 1, f, v => by
    simp only [pyFinM, bind_eq_ok, pure, Except.pure, Except.ok.injEq]
    constructor
    · rintro ⟨a, ha, w, hw, rfl⟩ i
      refine Fin.cases ?_ (fun j => ?_) i
      · simpa using ha
      · simpa using pyFinM_eq_ok.1 hw j
    · intro h
      exact ⟨v 0, h 0, fun i => v i.succ, pyFinM_eq_ok.2 fun i => h i.succ,
        funext fun i => by refine Fin.cases ?_ (fun j => ?_) i <;> simp⟩

/-- If some entry raises, filling the array raises an exception raised by some entry. -/
theorem pyFinM_error {α : Type} : ∀ {n : ℕ} {f : Fin n → Py α},
    (∃ i e, f i = .error e) → ∃ i e, f i = .error e ∧ pyFinM f = .error e
  | 0, _, h => by obtain ⟨i, _⟩ := h; exact i.elim0
  | n + 1, f, h => by
    rcases h0 : f 0 with e | a
    · exact ⟨0, e, h0, by simp only [pyFinM, h0]; rfl⟩
    · have : ∃ i e, f (Fin.succ i) = .error e := by
        obtain ⟨i, e, hi⟩ := h
        revert hi
        refine Fin.cases (fun hi => ?_) (fun j hj => ⟨j, e, hj⟩) i
        rw [h0] at hi; exact absurd hi (by simp)
      obtain ⟨i, e, hi, he⟩ := pyFinM_error (f := fun i => f i.succ) this
      exact ⟨i.succ, e, hi, by simp only [pyFinM, h0, ok_bind, he]; rfl⟩

theorem pyCheck_eq_ok {c : Prop} [Decidable c] {e : PyErr} {u : Unit} :
    pyCheck c e = .ok u ↔ c := by
  unfold pyCheck; split <;> simp_all

theorem pyCheck_ok {c : Prop} [Decidable c] {e : PyErr} (h : c) : pyCheck c e = .ok () := by
  simp [pyCheck, h]

theorem pyCheck_err {c : Prop} [Decidable c] {e : PyErr} (h : ¬c) : pyCheck c e = .error e := by
  simp [pyCheck, h]

theorem pySome_eq_ok {α : Type} {o : Option α} {a : α} : pySome o = .ok a ↔ o = some a := by
  cases o <;> simp [pySome]

theorem npIndex_ok {len i : ℕ} (h : i < len) : npIndex len (i : ℤ) = .ok ⟨i, h⟩ := by
  unfold npIndex
  rw [dif_pos ⟨by positivity, by exact_mod_cast h⟩]
  simp

theorem npIndex_eq_ok {len : ℕ} {i : ℤ} {k : Fin len} :
    npIndex len i = .ok k ↔ (i = k ∨ (i = (k : ℤ) - len)) := by
  unfold npIndex
  have := k.2
  split
  · rename_i h
    simp only [Except.ok.injEq, Fin.ext_iff]
    omega
  · split
    · simp only [Except.ok.injEq, Fin.ext_iff]
      omega
    · simp only [reduceCtorEq, false_iff]
      omega

theorem npIndex_error {len : ℕ} {i : ℤ} {e : PyErr} :
    npIndex len i = .error e ↔ e = .index ∧ (i < -(len : ℤ) ∨ (len : ℤ) ≤ i) := by
  unfold npIndex
  split
  · simp only [reduceCtorEq, false_iff]; omega
  · split
    · simp only [reduceCtorEq, false_iff]; omega
    · simp only [Except.error.injEq]
      constructor
      · rintro rfl; exact ⟨rfl, by omega⟩
      · rintro ⟨rfl, _⟩; rfl

theorem pyGetZ_nat {α : Type} {l : List α} {i : ℕ} (h : i < l.length) :
    pyGetZ l (i : ℤ) = .ok l[i] := by
  simp only [pyGetZ, npIndex_ok h, ok_bind]; rfl

theorem mapM_eq_ok {α β : Type} {f : α → Py β} : ∀ {l : List α} {l' : List β},
    l.mapM f = .ok l' ↔ List.Forall₂ (fun a b => f a = .ok b) l l'
  | [], l' => by
    simp only [List.mapM_nil, pure, Except.pure, Except.ok.injEq, List.forall₂_nil_left_iff]
    exact eq_comm
  | a :: l, l' => by
    simp only [List.mapM_cons, bind_eq_ok, mapM_eq_ok, pure, Except.pure, Except.ok.injEq,
      List.forall₂_cons_left_iff]
    constructor
    · rintro ⟨b, hb, bs, hbs, rfl⟩; exact ⟨b, bs, hb, hbs, rfl⟩
    · rintro ⟨b, bs, hb, hbs, rfl⟩; exact ⟨b, hb, bs, hbs, rfl⟩

theorem mapM_ok_of {α β : Type} {f : α → Py β} {g : α → β} {l : List α}
    (h : ∀ a ∈ l, f a = .ok (g a)) : l.mapM f = .ok (l.map g) := by
  rw [mapM_eq_ok]
  induction l with
  | nil => simp
  | cons a l ih =>
    simp only [List.map_cons, List.forall₂_cons]
    exact ⟨h a (by simp), ih fun b hb => h b (by simp [hb])⟩

/-- A double loop over `range Q` (outer) and `range P` (inner) in one index. -/
theorem range_flatMap {α : Type} (P Q : ℕ) (f : ℕ → ℕ → α) :
    ((List.range Q).flatMap fun b => (List.range P).map (f b)) =
      (List.range (P * Q)).map fun g => f (g / P) (g % P) := by
  rcases Nat.eq_zero_or_pos P with rfl | hP
  · simp
  induction Q with
  | zero => simp
  | succ Q ih =>
    rw [List.range_succ, List.flatMap_append, ih, Nat.mul_succ, List.range_add, List.map_append]
    congr 1
    simp only [List.flatMap_cons, List.flatMap_nil, List.append_nil, List.map_map]
    refine List.map_congr_left fun a ha => ?_
    rw [List.mem_range] at ha
    simp [Nat.mul_add_div hP, Nat.div_eq_of_lt ha, Nat.mod_eq_of_lt ha]

theorem forall₂_append_left {α β : Type} {R : α → β → Prop} : ∀ {a b : List α} {l : List β},
    List.Forall₂ R (a ++ b) l → ∃ l1 l2, List.Forall₂ R a l1 ∧ List.Forall₂ R b l2 ∧ l = l1 ++ l2
  | [], _, l, h => ⟨[], l, .nil, h, rfl⟩
  | _ :: _, _, _, .cons h1 h2 => by
    obtain ⟨l1, l2, p, q, rfl⟩ := forall₂_append_left h2
    exact ⟨_ :: l1, l2, .cons h1 p, q, rfl⟩

theorem pyGetZ_neg {α : Type} {l : List α} {i : ℤ} {k : ℕ} {a : α} (hk : l[k]? = some a) (hi : i + l.length = k)
    (_hn : i < 0) : pyGetZ l i = .ok a := by
  obtain ⟨h, rfl⟩ := List.getElem?_eq_some_iff.1 hk
  have : npIndex l.length i = .ok ⟨k, h⟩ := npIndex_eq_ok.2 (.inr (by simp; omega))
  simp only [pyGetZ, this, ok_bind]; rfl

end Khepri
