import Verif.Model.Parallel
import Verif.Lemmas.Stack
import Verif.Lemmas.Py
import Mathlib.Order.Bounds.Basic
import Mathlib.Algebra.BigOperators.Fin

/-! Parallel loops: what schedules can and cannot change. -/

set_option linter.unusedSectionVars false

namespace Khepri

open Complex

section
variable {ι : Type} [DecidableEq ι]

/-- The instructions of iteration `i` touch element `i` only. -/
def Own (i : ι) (p : List (Instr ι)) : Prop :=
  ∀ ins ∈ p, match ins with
    | .load c => c = i
    | .add _ => True
    | .store c => c = i

/-- What element `i` ends up with when iteration `i` runs alone. -/
def seqVal : ℂ → ℂ → List (Instr ι) → ℂ
  | s, _, [] => s
  | s, _, .load _ :: p => seqVal s s p
  | s, r, .add v :: p => seqVal s (r + v) p
  | _, r, .store _ :: p => seqVal r r p

theorem own_tail {i : ι} {x : Instr ι} {p : List (Instr ι)} (h : Own i (x :: p)) : Own i p :=
  fun ins hi => h ins (List.mem_cons_of_mem _ hi)

theorem step_inv {m : Machine ι} (h : ∀ j, Own j (m.iters j).prog) (i : ι) :
    (∀ j, Own j ((m.step i).iters j).prog) ∧
    ∀ j, seqVal ((m.step i).shared j) ((m.step i).iters j).reg ((m.step i).iters j).prog =
      seqVal (m.shared j) (m.iters j).reg (m.iters j).prog := by
  have hi := h i
  unfold Machine.step
  split
  · exact ⟨h, fun _ => rfl⟩
  all_goals
    rename_i p e
    rw [e] at hi
    refine ⟨fun j => ?_, fun j => ?_⟩
    · by_cases hj : j = i
      · subst hj; simpa using own_tail hi
      · simpa [hj] using h j
    · by_cases hj : j = i
      · subst hj
        first
          | (have hc := hi _ List.mem_cons_self; simp only at hc; subst hc; simp [e, seqVal])
          | simp [e, seqVal]
      · first
          | (have hc := hi _ List.mem_cons_self; simp only at hc; subst hc; simp [hj])
          | simp [hj]

theorem run_inv (sched : List ι) : ∀ {m : Machine ι}, (∀ j, Own j (m.iters j).prog) →
    ∀ j, seqVal ((m.run sched).shared j) ((m.run sched).iters j).reg ((m.run sched).iters j).prog =
      seqVal (m.shared j) (m.iters j).reg (m.iters j).prog := by
  induction sched with
  | nil => intro m _ j; rfl
  | cons i s ih =>
    intro m h j
    obtain ⟨h1, h2⟩ := step_inv h i
    exact (ih h1 j).trans (h2 j)

theorem finished_shared {progs : ι → List (Instr ι)} (h : ∀ i, Own i (progs i)) {sched : List ι}
    (hf : ((Machine.start progs).run sched).Finished) (i : ι) :
    ((Machine.start progs).run sched).shared i = seqVal 0 0 (progs i) := by
  have := run_inv sched (m := Machine.start progs) h i
  rw [hf i] at this
  exact this

theorem step_length (m : Machine ι) (i j : ι) :
    ((m.step i).iters j).prog.length = (m.iters j).prog.length - (if i = j then 1 else 0) := by
  unfold Machine.step
  by_cases hj : j = i
  · subst hj
    split <;> rename_i e <;> simp [e]
  · split <;> simp [hj, Ne.symm hj]

theorem run_length (sched : List ι) : ∀ (m : Machine ι) (j : ι),
    ((m.run sched).iters j).prog.length = (m.iters j).prog.length - sched.count j := by
  induction sched with
  | nil => intro m j; simp [Machine.run]
  | cons i s ih =>
    intro m j
    have : (m.run (i :: s)) = (m.step i).run s := rfl
    rw [this, ih, step_length, List.count_cons]
    simp only [beq_iff_eq]
    split <;> omega

theorem finished_iff {progs : ι → List (Instr ι)} {sched : List ι} :
    ((Machine.start progs).run sched).Finished ↔ ∀ i, (progs i).length ≤ sched.count i := by
  unfold Machine.Finished
  refine forall_congr' fun i => ?_
  rw [← List.length_eq_zero_iff, run_length]
  simp only [Machine.start]
  omega

/-- Running `X` adds `v` to the element. -/
def Sums (X : List (Instr ι)) (v : ℂ) : Prop := ∀ s r p, ∃ r', seqVal s r (X ++ p) = seqVal (s + v) r' p

theorem sums_nil : Sums ([] : List (Instr ι)) 0 := fun s r p => ⟨r, by simp⟩

theorem sums_append {X Y : List (Instr ι)} {v w : ℂ} (hX : Sums X v) (hY : Sums Y w) : Sums (X ++ Y) (v + w) := by
  intro s r p
  obtain ⟨r1, h1⟩ := hX s r (Y ++ p)
  obtain ⟨r2, h2⟩ := hY (s + v) r1 p
  exact ⟨r2, by rw [List.append_assoc, h1, h2, add_assoc]⟩

theorem sums_aug (i : ι) (v : ℂ) : Sums (augAdd i v) v := fun s _ _ => ⟨s + v, rfl⟩

theorem sums_val {X : List (Instr ι)} {v : ℂ} (h : Sums X v) : seqVal 0 0 X = v := by
  obtain ⟨r, hr⟩ := h 0 0 []
  simpa [seqVal] using hr

theorem own_append {i : ι} {X Y : List (Instr ι)} (hX : Own i X) (hY : Own i Y) : Own i (X ++ Y) := by
  intro ins h
  rcases List.mem_append.1 h with h | h
  · exact hX ins h
  · exact hY ins h

theorem own_nil (i : ι) : Own i ([] : List (Instr ι)) := fun _ h => absurd h (List.not_mem_nil)

theorem own_aug (i : ι) (v : ℂ) : Own i (augAdd i v) := by
  intro ins h
  simp only [augAdd, List.mem_cons, List.not_mem_nil, or_false] at h
  rcases h with rfl | rfl | rfl <;> simp

theorem dftRow_own (i : ι) (KXk KY : ℂ) (vs : List ℂ) : ∀ KYl, Own i (dftRow i KXk KY vs KYl) := by
  induction vs with
  | nil => intro _; exact own_nil i
  | cons v vs ih => intro _; exact own_append (own_aug _ _) (ih _)

theorem dftRows_own (i : ι) (KX KY : ℂ) (rs : List (List ℂ)) : ∀ KXk, Own i (dftRows i KX KY rs KXk) := by
  induction rs with
  | nil => intro _; exact own_nil i
  | cons r rs ih => intro _; exact own_append (dftRow_own _ _ _ _ _) (ih _)

theorem dftRow_sums (i : ι) (KXk KY : ℂ) : ∀ (n : ℕ) (f : Fin n → ℂ) (KYl : ℂ),
    Sums (dftRow i KXk KY (List.ofFn f) KYl) (∑ l, f l * KXk * (KYl * KY ^ (l : ℕ)))
  | 0, f, _ => by simpa [dftRow] using sums_nil
  | n + 1, f, KYl => by
    rw [List.ofFn_succ, Fin.sum_univ_succ]
    refine sums_append (by simpa using sums_aug i (f 0 * KXk * KYl)) ?_
    convert dftRow_sums i KXk KY n (fun l => f l.succ) (KYl * KY) using 3 with l
    simp only [Fin.val_succ, pow_succ]
    ring

theorem dftRows_sums (i : ι) (KX KY : ℂ) (ny : ℕ) : ∀ (n : ℕ) (f : Fin n → Fin ny → ℂ) (KXk : ℂ),
    Sums (dftRows i KX KY (List.ofFn fun k => List.ofFn (f k)) KXk)
      (∑ k, ∑ l, f k l * (KXk * KX ^ (k : ℕ)) * (1 * KY ^ (l : ℕ)))
  | 0, f, _ => by simpa [dftRows] using sums_nil
  | n + 1, f, KXk => by
    rw [List.ofFn_succ, Fin.sum_univ_succ]
    refine sums_append (by simpa using dftRow_sums i KXk KY ny (f 0) 1) ?_
    convert dftRows_sums i KX KY ny n (fun k => f k.succ) (KXk * KX) using 4 with k _ l
    simp only [Fin.val_succ, pow_succ]
    ring

theorem dftRow_length (i : ι) (KXk KY : ℂ) (vs : List ℂ) : ∀ KYl, (dftRow i KXk KY vs KYl).length = 3 * vs.length := by
  induction vs with
  | nil => intro _; rfl
  | cons v vs ih => intro _; simp [dftRow, augAdd, ih]; omega

theorem dftRows_length (i : ι) (KX KY : ℂ) (rs : List (List ℂ)) :
    ∀ KXk, (dftRows i KX KY rs KXk).length = 3 * (rs.map List.length).sum := by
  induction rs with
  | nil => intro _; rfl
  | cons r rs ih => intro _; simp [dftRows, dftRow_length, ih]; omega

theorem flatMap_sums (i : ι) {α : Type} (v : α → ℂ) : ∀ (l : List α),
    Sums (l.flatMap fun k => augAdd i (v k)) (l.map v).sum
  | [] => by simpa using sums_nil
  | k :: l => by
    rw [List.flatMap_cons, List.map_cons, List.sum_cons]
    exact sums_append (sums_aug _ _) (flatMap_sums i v l)

theorem flatMap_own (i : ι) {α : Type} (v : α → ℂ) (l : List α) : Own i (l.flatMap fun k => augAdd i (v k)) := by
  induction l with
  | nil => exact own_nil i
  | cons k l ih => rw [List.flatMap_cons]; exact own_append (own_aug _ _) ih

end

/-! ## Reductions -/

/-- The rows of a table. -/
def tableOf {nx ny : ℕ} (g : Fin nx → Fin ny → ℂ) : List (List ℂ) := List.ofFn fun k => List.ofFn (g k)

theorem zipWith_ofFn {α β γ : Type} (h : α → β → γ) {n : ℕ} (f : Fin n → α) (g : Fin n → β) :
    List.zipWith h (List.ofFn f) (List.ofFn g) = List.ofFn fun i => h (f i) (g i) := by
  apply List.ext_getElem
  · simp
  · intro i h1 h2; simp

theorem addRows_table {nx ny : ℕ} (f g : Fin nx → Fin ny → ℂ) : addRows (tableOf f) (tableOf g) = tableOf (f + g) := by
  unfold addRows tableOf
  rw [zipWith_ofFn]
  congr 1
  funext k
  rw [zipWith_ofFn]
  rfl

theorem zeroRows_table (nx ny : ℕ) : zeroRows nx ny = tableOf (0 : Fin nx → Fin ny → ℂ) := by
  unfold zeroRows tableOf
  apply List.ext_getElem
  · simp
  · intro i h1 h2
    simp only [List.getElem_replicate, List.getElem_ofFn]
    apply List.ext_getElem
    · simp
    · intro j h3 h4; simp

theorem foldl_addRows {nx ny : ℕ} (l : List (Fin nx → Fin ny → ℂ)) : ∀ a : Fin nx → Fin ny → ℂ,
    (l.map tableOf).foldl addRows (tableOf a) = tableOf (a + l.sum) := by
  induction l with
  | nil => intro a; simp
  | cons g l ih => intro a; rw [List.map_cons, List.foldl_cons, addRows_table, ih, List.sum_cons, add_assoc]

theorem idft2Row_ofFn (f KXk KY : ℂ) : ∀ (n : ℕ) (KYl : ℂ),
    idft2Row f KXk KY n KYl = List.ofFn fun l : Fin n => f * KXk * (KYl * KY ^ (l : ℕ))
  | 0, _ => by simp [idft2Row]
  | n + 1, KYl => by
    rw [idft2Row, idft2Row_ofFn f KXk KY n, List.ofFn_succ]
    congr 1
    · simp
    · congr 1; funext l; simp only [Fin.val_succ, pow_succ]; ring

theorem idft2Rows_table (f KX KY KY0 : ℂ) (ny : ℕ) : ∀ (n : ℕ) (KXk : ℂ),
    idft2Rows f KX KY KY0 ny n KXk =
      tableOf fun (k : Fin n) (l : Fin ny) => f * (KXk * KX ^ (k : ℕ)) * (KY0 * KY ^ (l : ℕ))
  | 0, _ => by simp [idft2Rows, tableOf]
  | n + 1, KXk => by
    rw [idft2Rows, idft2Rows_table f KX KY KY0 ny n, idft2Row_ofFn]
    unfold tableOf
    rw [List.ofFn_succ]
    congr 1
    · simp
    · congr 1; funext k; congr 1; funext l; simp only [Fin.val_succ, pow_succ]; ring

theorem foldl_min_least (t : List ℝ) : ∀ a : ℝ, IsLeast {v | v ∈ a :: t} (t.foldl min a) := by
  induction t with
  | nil => intro a; simp [IsLeast, lowerBounds]
  | cons b t ih =>
    intro a
    obtain ⟨h1, h2⟩ := ih (min a b)
    rw [List.foldl_cons]
    simp only [Set.mem_ofPred_eq, List.mem_cons] at h1
    refine ⟨?_, ?_⟩
    · simp only [Set.mem_ofPred_eq, List.mem_cons]
      rcases h1 with h1 | h1
      · rcases min_choice a b with e | e
        · left; rw [h1, e]
        · right; left; rw [h1, e]
      · right; right; exact h1
    · intro v hv
      simp only [Set.mem_ofPred_eq, List.mem_cons] at hv
      have hm : t.foldl min (min a b) ≤ min a b := h2 (by simp)
      rcases hv with rfl | rfl | hv
      · exact hm.trans (min_le_left _ _)
      · exact hm.trans (min_le_right _ _)
      · exact h2 (by simp [hv])

theorem foldl_max_greatest (t : List ℝ) : ∀ a : ℝ, IsGreatest {v | v ∈ a :: t} (t.foldl max a) := by
  induction t with
  | nil => intro a; simp [IsGreatest, upperBounds]
  | cons b t ih =>
    intro a
    obtain ⟨h1, h2⟩ := ih (max a b)
    rw [List.foldl_cons]
    simp only [Set.mem_ofPred_eq, List.mem_cons] at h1
    refine ⟨?_, ?_⟩
    · simp only [Set.mem_ofPred_eq, List.mem_cons]
      rcases h1 with h1 | h1
      · rcases max_choice a b with e | e
        · left; rw [h1, e]
        · right; left; rw [h1, e]
      · right; right; exact h1
    · intro v hv
      simp only [Set.mem_ofPred_eq, List.mem_cons] at hv
      have hm : max a b ≤ t.foldl max (max a b) := h2 (by simp)
      rcases hv with rfl | rfl | hv
      · exact (le_max_left _ _).trans hm
      · exact (le_max_right _ _).trans hm
      · exact h2 (by simp [hv])

theorem mem_elems {x : RArr2} {v : ℝ} : v ∈ x.elems ↔ ∃ k l, x.val k l = v := by
  unfold RArr2.elems
  simp only [List.mem_flatten, List.mem_ofFn]
  constructor
  · rintro ⟨_, ⟨k, rfl⟩, hv⟩
    obtain ⟨l, rfl⟩ := (List.mem_ofFn' _ _).1 hv
    exact ⟨k, l, rfl⟩
  · rintro ⟨k, l, rfl⟩
    exact ⟨_, ⟨k, rfl⟩, (List.mem_ofFn' _ _).2 ⟨l, rfl⟩⟩

theorem npMin_eq_ok {x : RArr2} {m : ℝ} : npMin x.elems = .ok m ↔ IsLeast {v | ∃ k l, x.val k l = v} m := by
  have : {v | ∃ k l, x.val k l = v} = {v | v ∈ x.elems} := by ext v; exact mem_elems.symm
  rw [this]
  cases h : x.elems with
  | nil => simp [npMin, IsLeast]
  | cons a t =>
    simp only [npMin, Except.ok.injEq]
    exact ⟨fun e => e ▸ foldl_min_least t a, fun e => (foldl_min_least t a).unique e⟩

theorem npMax_eq_ok {x : RArr2} {m : ℝ} : npMax x.elems = .ok m ↔ IsGreatest {v | ∃ k l, x.val k l = v} m := by
  have : {v | ∃ k l, x.val k l = v} = {v | v ∈ x.elems} := by ext v; exact mem_elems.symm
  rw [this]
  cases h : x.elems with
  | nil => simp [npMax, IsGreatest]
  | cons a t =>
    simp only [npMax, Except.ok.injEq]
    exact ⟨fun e => e ▸ foldl_max_greatest t a, fun e => (foldl_max_greatest t a).unique e⟩

theorem idft2_eq_ok {N : ℕ} {f kx ky : Fin N → ℂ} {x y : RArr2} {chunks : List (List (Fin N))} {r : List (List ℂ)} :
    idft2 f kx ky x y chunks = .ok r ↔ x.nx = y.nx ∧ x.ny = y.ny ∧ ∃ xmin xmax ymin ymax : ℝ,
      IsLeast {v | ∃ k l, x.val k l = v} xmin ∧ IsGreatest {v | ∃ k l, x.val k l = v} xmax ∧
      IsLeast {v | ∃ k l, y.val k l = v} ymin ∧ IsGreatest {v | ∃ k l, y.val k l = v} ymax ∧
      r = tableOf (chunks.flatten.map fun i => fun (k : Fin x.nx) (l : Fin x.ny) =>
        f i * (exp (I * kx i * xmin) * exp (I * kx i * ((xmax - xmin) / x.nx : ℝ)) ^ (k : ℕ)) *
          (exp (I * ky i * ymin) * exp (I * ky i * ((ymax - ymin) / x.ny : ℝ)) ^ (l : ℕ))).sum := by
  unfold idft2
  simp only [bind_eq_ok, pyCheck_eq_ok, npMin_eq_ok, npMax_eq_ok, pure, Except.pure, Except.ok.injEq]
  have key : ∀ xmin xmax ymin ymax : ℝ,
      ((chunks.map fun c => (c.map fun i => idft2Rows (f i) (exp (I * kx i * ((xmax - xmin) / x.nx : ℝ)))
        (exp (I * ky i * ((ymax - ymin) / x.ny : ℝ))) (exp (I * ky i * ymin)) x.ny x.nx (exp (I * kx i * xmin))).foldl
          addRows (zeroRows x.nx x.ny)).foldl addRows (zeroRows x.nx x.ny)) =
      tableOf (chunks.flatten.map fun i => fun (k : Fin x.nx) (l : Fin x.ny) =>
        f i * (exp (I * kx i * xmin) * exp (I * kx i * ((xmax - xmin) / x.nx : ℝ)) ^ (k : ℕ)) *
          (exp (I * ky i * ymin) * exp (I * ky i * ((ymax - ymin) / x.ny : ℝ)) ^ (l : ℕ))).sum := by
    intro xmin xmax ymin ymax
    have inner : ∀ c : List (Fin N), (c.map fun i => idft2Rows (f i) (exp (I * kx i * ((xmax - xmin) / x.nx : ℝ)))
        (exp (I * ky i * ((ymax - ymin) / x.ny : ℝ))) (exp (I * ky i * ymin)) x.ny x.nx (exp (I * kx i * xmin))).foldl
          addRows (zeroRows x.nx x.ny) = tableOf (c.map fun i => fun (k : Fin x.nx) (l : Fin x.ny) =>
        f i * (exp (I * kx i * xmin) * exp (I * kx i * ((xmax - xmin) / x.nx : ℝ)) ^ (k : ℕ)) *
          (exp (I * ky i * ymin) * exp (I * ky i * ((ymax - ymin) / x.ny : ℝ)) ^ (l : ℕ))).sum := by
      intro c
      rw [zeroRows_table]
      have := foldl_addRows (c.map fun i => fun (k : Fin x.nx) (l : Fin x.ny) =>
        f i * (exp (I * kx i * xmin) * exp (I * kx i * ((xmax - xmin) / x.nx : ℝ)) ^ (k : ℕ)) *
          (exp (I * ky i * ymin) * exp (I * ky i * ((ymax - ymin) / x.ny : ℝ)) ^ (l : ℕ))) 0
      rw [zero_add, List.map_map] at this
      rw [← this]
      congr 1
      exact List.map_congr_left fun i _ => idft2Rows_table ..
    rw [List.map_congr_left fun c _ => inner c, zeroRows_table]
    have := foldl_addRows (chunks.map fun c => (c.map fun i => fun (k : Fin x.nx) (l : Fin x.ny) =>
        f i * (exp (I * kx i * xmin) * exp (I * kx i * ((xmax - xmin) / x.nx : ℝ)) ^ (k : ℕ)) *
          (exp (I * ky i * ymin) * exp (I * ky i * ((ymax - ymin) / x.ny : ℝ)) ^ (l : ℕ))).sum) 0
    rw [zero_add, List.map_map] at this
    rw [List.map_flatten, List.sum_flatten, List.map_map]
    exact this
  constructor
  · rintro ⟨_, ⟨h1, h2⟩, xmin, a1, xmax, a2, ymin, a3, ymax, a4, rfl⟩
    exact ⟨h1, h2, xmin, xmax, ymin, ymax, a1, a2, a3, a4, key ..⟩
  · rintro ⟨h1, h2, xmin, xmax, ymin, ymax, a1, a2, a3, a4, rfl⟩
    exact ⟨(), ⟨h1, h2⟩, xmin, a1, xmax, a2, ymin, a3, ymax, a4, key ..⟩

end Khepri
