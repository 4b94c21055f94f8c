import Verif.Props.Builder
import Verif.Props.History

/-!
# Property C71, continued: `from_expansion`, and what `source_defined` and `solved` say
-/

namespace Khepri

open Crystal

variable {N : ℕ}

/-- The calls to `set_source`. -/
def Call.isSource : Call N → Bool
  | .source .. => true
  | _ => false

/-- **C71.** `from_expansion(expansion, ...)` gives a crystal without layers, device or source that has the very expansion it
is given and every other argument it is given; it refuses what the constructor refuses with as many orders. -/
theorem C71_from_expansion {tag : ℕ} {e : Expansion N} {lattice : LatticeArg} {pitch : ℝ} {void : Bool} {epsi epse : ℂ}
    {c : Crystal N} : Crystal.fromExpansion tag e lattice pitch void epsi epse = .ok c ↔
      (∃ c', Crystal.create tag e.pw lattice pitch void epsi epse = .ok c') ∧
      c.expansion = e ∧ c.void = void ∧ c.epsi = epsi ∧ c.epse = epse ∧ c.layers = (fun _ => none) ∧ c.deviceStack = none ∧
      c.globalStacking = none ∧ c.retainMask = [] ∧ c.stackPositions = [] ∧ c.source = none ∧ c.stacked = none := by
  simp only [Crystal.fromExpansion, bind_eq_ok, pure, Except.pure, Except.ok.injEq]
  constructor
  · rintro ⟨c', h, rfl⟩
    exact ⟨⟨c', h⟩, rfl, rfl, rfl, rfl, rfl, rfl, rfl, rfl, rfl, rfl, rfl⟩
  · rintro ⟨⟨c', h⟩, h1, h2, h3, h4, h5, h6, h7, h8, h9, h10, h11⟩
    refine ⟨c', h, ?_⟩
    cases c
    simp only at h1 h2 h3 h4 h5 h6 h7 h8 h9 h10 h11
    subst h1 h2 h3 h4 h5 h6 h7 h8 h9 h10 h11
    rfl

theorem call_status {lib : NumLib} {c c' : Crystal N} {k : Call N} (h : c.call lib k = .ok c') :
    c'.source.isSome = (k.isSource || c.source.isSome) ∧ c'.stacked.isSome = (k.isSolve || c.stacked.isSome) := by
  cases k with
  | register x l =>
    simp only [Crystal.call, Except.ok.injEq] at h
    rw [← h]; exact ⟨rfl, rfl⟩
  | device s m =>
    simp only [Crystal.call, Crystal.setDevice, Crystal.enableFields_eq_ok] at h
    obtain ⟨-, rfl⟩ := h
    simp only
    rw [Crystal.ensureHalf_rest]
    simp only
    rw [Crystal.ensureHalf_rest]
    exact ⟨rfl, rfl⟩
  | source wl te tm th ph kp =>
    obtain ⟨-, k, -, rfl⟩ := Crystal.setSource_eq_ok.1 h
    exact ⟨rfl, rfl⟩
  | solve o =>
    have hs := Crystal.solve_keeps_source h
    refine ⟨by rw [hs]; rfl, ?_⟩
    simp only [Crystal.call, Crystal.solve, bind_eq_ok, pure, Except.pure, Except.ok.injEq] at h
    obtain ⟨_, -, _, -, _, -, _, -, _, -, _, -, _, -, rfl⟩ := h
    rfl

theorem run_status {lib : NumLib} : ∀ {h : List (Call N)} {c r : Crystal N}, c.run lib h = .ok r →
    r.source.isSome = (h.any Call.isSource || c.source.isSome) ∧ r.stacked.isSome = (h.any Call.isSolve || c.stacked.isSome)
  | [], c, r, hr => by rw [Crystal.run_nil] at hr; rw [hr]; exact ⟨rfl, rfl⟩
  | k :: h, c, r, hr => by
    obtain ⟨c1, h1, h2⟩ := Crystal.run_cons.1 hr
    obtain ⟨e1, e2⟩ := run_status h2
    obtain ⟨f1, f2⟩ := call_status h1
    rw [e1, e2, f1, f2]
    simp only [List.any_cons]
    constructor
    · cases k.isSource <;> cases h.any Call.isSource <;> rfl
    · cases k.isSolve <;> cases h.any Call.isSolve <;> rfl

/-- **C71.** After any sequence of calls on a new crystal, `source_defined` says whether `set_source` was called and `solved`
whether `solve` was; `solve` is not possible without a source, so `solved` implies `source_defined`. -/
theorem C71_status {lib : NumLib} {e : Expansion N} {void : Bool} {epsi epse : ℂ} {h : List (Call N)} {c : Crystal N}
    (hc : (newCrystal e void epsi epse).run lib h = .ok c) :
    (c.sourceDefined = true ↔ ∃ k ∈ h, k.isSource = true) ∧ (c.solved = true ↔ ∃ k ∈ h, k.isSolve = true) ∧
    (c.sourceDefined = false → ∀ order, c.solve lib order = .error .assertion) ∧
    (c.solved = true → c.sourceDefined = true) := by
  obtain ⟨e1, e2⟩ := run_status hc
  refine ⟨?_, ?_, ?_, ?_⟩
  · rw [Crystal.sourceDefined, e1]; simp [newCrystal]
  · rw [Crystal.solved, e2]; simp [newCrystal]
  · intro hs order
    have : c.source = none := by
      rw [Crystal.sourceDefined] at hs
      cases hsrc : c.source with
      | none => rfl
      | some _ => rw [hsrc] at hs; simp at hs
    simp [Crystal.solve, this, asserted, error_bind]
  · have key : ∀ {h : List (Call N)} {c r : Crystal N}, (c.stacked.isSome = true → c.source.isSome = true) →
        c.run lib h = .ok r → r.stacked.isSome = true → r.source.isSome = true := by
      intro h
      induction h with
      | nil => intro c r hi hr; rw [Crystal.run_nil] at hr; rw [← hr]; exact hi
      | cons k h ih =>
        intro c r hi hr
        obtain ⟨c1, h1, h2⟩ := Crystal.run_cons.1 hr
        refine ih ?_ h2
        obtain ⟨f1, f2⟩ := call_status h1
        intro hst
        rw [f1]
        cases k with
        | solve o =>
          cases hs : c.source with
          | none => simp [Crystal.call, Crystal.solve, hs, asserted, error_bind] at h1
          | some _ => simp
        | register x l => rw [f2] at hst; simp only [Call.isSolve, Bool.false_or] at hst; simp [hi hst]
        | device x l => rw [f2] at hst; simp only [Call.isSolve, Bool.false_or] at hst; simp [hi hst]
        | source a b c d e f => rfl
    exact key (by simp [newCrystal]) hc

/-- Non-vacuity: `from_expansion` on the example expansion without outer media; a history that ends solved, and one that does
not. -/
example : (∃ c, Crystal.fromExpansion 1 exampleExpansion (.name "square") 1 true 1 1 = .ok c) ∧
    (∃ (lib : NumLib) (h : List (Call 1)) (c : Crystal 1), (newCrystal exampleExpansion false 1 1).run lib h = .ok c ∧
      c.sourceDefined = true ∧ c.solved = false) := by
  refine ⟨⟨{ expansion := exampleExpansion, void := true, epsi := 1, epse := 1 }, C71_from_expansion.2 ⟨⟨_, create_eq_ok.2
    ⟨((1, 0), (0, 1)), _, by simp [latticeVectors],
      make_eq_ok.2 ⟨rfl, rfl, _, reciproc_eq_ok.2 ⟨by norm_num, rfl⟩, rfl⟩, rfl⟩⟩, rfl, rfl, rfl, rfl, rfl, rfl, rfl,
    rfl, rfl, rfl, rfl⟩⟩, ?_⟩
  obtain ⟨c1, e0, h1, hi, -⟩ := example_new exampleLib
  refine ⟨exampleLib, exampleHistory, { c1 with source := some exampleSource }, ?_, rfl, ?_⟩
  · simp only [exampleHistory, Crystal.run_cons, Crystal.run_nil, Crystal.call, e0]
    exact ⟨_, rfl, c1, h1, _, example_setSource hi, rfl⟩
  · have hrun : (newCrystal exampleExpansion false 1 1).run exampleLib exampleHistory =
        .ok { c1 with source := some exampleSource } := by
      simp only [exampleHistory, Crystal.run_cons, Crystal.run_nil, Crystal.call, e0]
      exact ⟨_, rfl, c1, h1, _, example_setSource hi, rfl⟩
    have := (C71_status hrun).2.1
    simpa [exampleHistory, Call.isSolve] using this

end Khepri
