import Verif.Spec.Builder
import Verif.Spec.Crystal
import Verif.Lemmas.CrystalView
import Verif.Props.Expansion

set_option linter.unusedSectionVars false

namespace Khepri

open Crystal

variable {N : ℕ}

theorem add_cases {c c' : Crystal N} {a : Add} (h : c.add a = .ok c') :
    ∃ l : Layer N, c' = c.addLayer a.name l ∧ a.Asks l.form ∧ l.depth = a.depth ∧ l.expansion = c.expansion ∧
      l.fields = false ∧ l.W = none ∧ l.S = none := by
  cases a with
  | uniform n eps d =>
    simp only [Crystal.add, Except.ok.injEq] at h
    exact ⟨_, h.symm, rfl, rfl, rfl, rfl, rfl, rfl⟩
  | pixmap n p d =>
    simp only [Crystal.add, Except.ok.injEq] at h
    exact ⟨_, h.symm, rfl, rfl, rfl, rfl, rfl, rfl⟩
  | analytical n i ho d =>
    simp only [Crystal.add, Except.ok.injEq] at h
    exact ⟨_, h.symm, rfl, rfl, rfl, rfl, rfl, rfl⟩
  | pixmapOrUniform n p d =>
    simp only [Crystal.add, bind_eq_ok, pure, Except.pure, Except.ok.injEq] at h
    obtain ⟨l, hl, rfl⟩ := h
    unfold Layer.pixmapOrUniform at hl
    split at hl <;> [skip; cases hl]
    dsimp only at hl
    split_ifs at hl with h2
    · rw [Except.ok.injEq] at hl
      subst hl
      exact ⟨_, rfl, .inl ⟨_, h2, rfl⟩, rfl, rfl, rfl, rfl, rfl⟩
    · rw [Except.ok.injEq] at hl
      subst hl
      refine ⟨_, rfl, .inr ⟨?_, rfl⟩, rfl, rfl, rfl, rfl, rfl⟩
      rintro ⟨v, hv⟩
      exact h2 fun i j => by rw [hv i j, hv]

theorem lastAdd_append (l : List Add) (a : Add) (x : String) :
    lastAdd (l ++ [a]) x = if a.name = x then some a else lastAdd l x := by
  simp only [lastAdd, List.reverse_append, List.reverse_cons, List.reverse_nil, List.nil_append, List.cons_append,
    List.find?_cons]
  split_ifs with h <;> simp [h]

theorem lastAdd_some {l : List Add} {x : String} {a : Add} (h : lastAdd l x = some a) : a ∈ l ∧ a.name = x := by
  have h1 := List.mem_of_find?_eq_some h
  have h2 := List.find?_some h
  exact ⟨by simpa using h1, by simpa using h2⟩

theorem lastAdd_isSome {l : List Add} {x : String} (h : ∃ a ∈ l, a.name = x) : ∃ a, lastAdd l x = some a := by
  obtain ⟨a, ha, rfl⟩ := h
  have : (lastAdd l a.name).isSome := by
    rw [lastAdd, List.find?_isSome]
    exact ⟨a, by simpa using ha, by simp⟩
  exact Option.isSome_iff_exists.1 this

theorem lastAdd_none {l : List Add} {x : String} (h : ∀ a ∈ l, a.name ≠ x) : lastAdd l x = none := by
  rw [lastAdd, List.find?_eq_none]
  intro a ha
  simpa using h a (by simpa using ha)

theorem addAll_view {c0 c : Crystal N} {l : List Add} (h : c0.addAll l = .ok c) :
    c = { c0 with layers := c.layers } ∧ ∀ x, (lastAdd l x = none → c.layers x = c0.layers x) ∧
      ∀ a, lastAdd l x = some a → ∃ y : Layer N, c.layers x = some (.plain y) ∧ a.Asks y.form ∧ y.depth = a.depth ∧
        y.expansion = c0.expansion ∧ y.fields = false ∧ y.W = none ∧ y.S = none := by
  unfold Crystal.addAll at h
  induction l using List.reverseRecOn generalizing c with
  | nil =>
    simp only [List.foldlM_nil, pure, Except.pure, Except.ok.injEq] at h
    subst h
    exact ⟨rfl, fun x => ⟨fun _ => rfl, fun a ha => by simp [lastAdd] at ha⟩⟩
  | append_singleton l a ih =>
    simp only [List.foldlM_append, List.foldlM_cons, List.foldlM_nil, bind_eq_ok, pure, Except.pure,
      Except.ok.injEq] at h
    obtain ⟨c', h1, c'', h2, rfl⟩ := h
    obtain ⟨e1, e2⟩ := ih h1
    obtain ⟨y, rfl, k1, k2, k3, k4, k5, k6⟩ := add_cases h2
    refine ⟨?_, fun x => ?_⟩
    · simp only [Crystal.addLayer, Crystal.setLayer]
      rw [e1]
    · rw [lastAdd_append]
      have hexp : c'.expansion = c0.expansion := by rw [e1]
      by_cases hx : a.name = x
      · simp only [if_pos hx, reduceCtorEq, false_implies, Option.some.injEq, true_and]
        rintro _ rfl
        exact ⟨y, by simp [Crystal.addLayer, Crystal.setLayer, hx], k1, k2, k3.trans hexp, k4, k5, k6⟩
      · have hl : (c'.addLayer a.name y).layers x = c'.layers x := by
          simp [Crystal.addLayer, Crystal.setLayer, Function.update_of_ne (Ne.symm hx)]
        rw [if_neg hx, hl]
        exact e2 x

theorem create_eq_ok {tag : ℕ} {pw : ℕ × ℕ} {lattice : LatticeArg} {pitch : ℝ} {void : Bool} {epsi epse : ℂ}
    {c : Crystal (pw.1 * pw.2)} : Crystal.create tag pw lattice pitch void epsi epse = .ok c ↔
      ∃ lat e, latticeVectors pitch lattice = .ok lat ∧ Expansion.make tag pw lat = .ok e ∧
        c = { expansion := e, void := void, epsi := epsi, epse := epse } := by
  simp only [Crystal.create, bind_eq_ok, pure, Except.pure, Except.ok.injEq]
  constructor
  · rintro ⟨lat, h1, e, h2, rfl⟩; exact ⟨lat, e, h1, h2, rfl⟩
  · rintro ⟨lat, e, h1, h2, rfl⟩; exact ⟨lat, h1, e, h2, rfl⟩

/-- The device of a crystal built by calls. -/
theorem build_fresh {tag : ℕ} {pw : ℕ × ℕ} {lattice : LatticeArg} {pitch : ℝ} {epsi epse : ℂ}
    {c0 c : Crystal (pw.1 * pw.2)} {l : List Add} {stack : List String} {m : Bool ⊕ List Bool}
    (h0 : Crystal.create tag pw lattice pitch false epsi epse = .ok c0) (h : c0.addAll l = .ok c)
    (hr : ∀ a ∈ l, a.name ≠ "Sref" ∧ a.name ≠ "Strans") (hst : ∀ x ∈ stack, ∃ a ∈ l, a.name = x)
    (hm : ∀ b, m = .inr b → b.length = stack.length) :
    ∃ Ls, FreshDevice c stack m Ls epsi epse ∧ Built c.expansion ∧
      List.Forall₂ (fun x (y : Layer (pw.1 * pw.2)) => ∃ a, lastAdd l x = some a ∧ a.Asks y.form ∧ y.depth = a.depth) stack Ls := by
  obtain ⟨lat, e, h1, h2, rfl⟩ := create_eq_ok.1 h0
  obtain ⟨e1, e2⟩ := addAll_view h
  have hall : ∀ x ∈ stack, ∃ y : Layer (pw.1 * pw.2), (c.layers x = some (.plain y) ∧ y.form.isLayer ∧
      y.expansion = c.expansion) ∧ ∃ a, lastAdd l x = some a ∧ a.Asks y.form ∧ y.depth = a.depth := by
    intro x hx
    obtain ⟨a, ha⟩ := lastAdd_isSome (hst x hx)
    obtain ⟨y, k1, k2, k3, k4, -⟩ := (e2 x).2 a ha
    refine ⟨y, ⟨k1, ?_, ?_⟩, a, ha, k2, k3⟩
    · cases a <;> simp only [Add.Asks] at k2
      · rw [k2]; trivial
      · rw [k2]; trivial
      · rcases k2 with ⟨v, -, k2⟩ | ⟨-, k2⟩ <;> rw [k2] <;> trivial
      · rw [k2]; trivial
    · rw [k4, e1]
  have hex : ∃ Ls, List.Forall₂ (fun x (y : Layer (pw.1 * pw.2)) => (c.layers x = some (.plain y) ∧ y.form.isLayer ∧
      y.expansion = c.expansion) ∧ ∃ a, lastAdd l x = some a ∧ a.Asks y.form ∧ y.depth = a.depth) stack Ls := by
    clear hst hm
    induction stack with
    | nil => exact ⟨[], .nil⟩
    | cons x t ih =>
      obtain ⟨y, hy⟩ := hall x (by simp)
      obtain ⟨Ls, hL⟩ := ih fun z hz => hall z (by simp [hz])
      exact ⟨y :: Ls, .cons hy hL⟩
  obtain ⟨Ls, hL⟩ := hex
  refine ⟨Ls, ⟨by rw [e1], by rw [e1], by rw [e1], ?_, ?_, hL.imp fun _ _ k => k.1, hm⟩, ?_, hL.imp fun _ _ k => k.2⟩
  · rw [(e2 "Sref").1 (lastAdd_none fun a ha => (hr a ha).1)]
  · rw [(e2 "Strans").1 (lastAdd_none fun a ha => (hr a ha).2)]
  · rw [e1]; exact Built.make h2

end Khepri
