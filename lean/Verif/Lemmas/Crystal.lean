import Verif.Model.Crystal
import Verif.Lemmas.Device
import Verif.Lemmas.Py

set_option linter.unusedSectionVars false

namespace Khepri

open Matrix

variable {N : ℕ}

namespace Crystal

theorem layer_eq_ok {c : Crystal N} {x : String} {l : AnyLayer N} :
    c.layer x = .ok l ↔ c.layers x = some l := by
  unfold layer; split <;> simp_all

theorem attr_eq_ok {α : Type} {o : Option α} {a : α} : attr o = .ok a ↔ o = some a := by
  cases o <;> simp [attr]

theorem asserted_eq_ok {α : Type} {o : Option α} {a : α} : asserted o = .ok a ↔ o = some a := by
  cases o <;> simp [asserted]

/-- What solving the layers of a set does, whatever the order. -/
theorem solveLayers_eq_ok {lib : NumLib} {kp : ℂ × ℂ} {wl : ℝ} : ∀ {order : List String}
    (_ : order.Nodup) {c c' : Crystal N},
    c.solveLayers lib kp wl order = .ok c' ↔
      (∀ x ∈ order, ∃ l l', c.layers x = some l ∧ l.solve lib kp wl = .ok l' ∧ c'.layers x = some l') ∧
      (∀ x ∉ order, c'.layers x = c.layers x) ∧ c' = { c with layers := c'.layers } := by
  intro order
  induction order with
  | nil =>
    intro _ c c'
    simp only [solveLayers, Except.ok.injEq, List.not_mem_nil, false_implies, implies_true, true_and,
      not_false_eq_true, forall_const]
    constructor
    · rintro rfl; exact ⟨fun _ => rfl, rfl⟩
    · rintro ⟨h, h'⟩
      rw [h', funext h]
  | cons x rest ih =>
    intro hnd c c'
    rw [List.nodup_cons] at hnd
    simp only [solveLayers, bind_eq_ok, layer_eq_ok, ih hnd.2]
    constructor
    · rintro ⟨l, hl, l', hl', h1, h2, h3⟩
      refine ⟨?_, ?_, h3⟩
      · intro y hy
        rcases List.mem_cons.1 hy with rfl | hy
        · exact ⟨l, l', hl, hl', by rw [h2 _ hnd.1]; simp [setLayer]⟩
        · obtain ⟨a, a', ha, ha', ha''⟩ := h1 y hy
          have : y ≠ x := fun h => hnd.1 (h ▸ hy)
          refine ⟨a, a', ?_, ha', ha''⟩
          simpa [setLayer, this] using ha
      · intro y hy
        rw [List.mem_cons, not_or] at hy
        rw [h2 y hy.2]
        simp [setLayer, hy.1]
    · rintro ⟨h1, h2, h3⟩
      obtain ⟨l, l', hl, hl', hl''⟩ := h1 x (by simp)
      refine ⟨l, hl, l', hl', ?_, ?_, h3⟩
      · intro y hy
        obtain ⟨a, a', ha, ha', ha''⟩ := h1 y (by simp [hy])
        have : y ≠ x := fun h => hnd.1 (h ▸ hy)
        refine ⟨a, a', ?_, ha', ha''⟩
        simpa [setLayer, this] using ha
      · intro y hy
        by_cases hyx : y = x
        · subst hyx; simp [setLayer, hl'']
        · rw [h2 y (by simp [hyx, hy])]
          simp [setLayer, hyx]

/-- What `solve` does, for an iteration order without repetition. -/
theorem solve_eq_ok {lib : NumLib} {order : List String} (hnd : order.Nodup) {c c' : Crystal N} :
    c.solve lib order = .ok c' ↔
      ∃ src names ls pos Ss st, c.source = some src ∧ c.globalStacking = some names ∧
        (∀ x ∈ order, ∃ l l', c.layers x = some l ∧ l.solve lib src.kp src.wavelength = .ok l' ∧
          c'.layers x = some l') ∧
        (∀ x ∉ order, c'.layers x = c.layers x) ∧
        List.Forall₂ (fun x l => c'.layers x = some l) names ls ∧
        positions c.void (ls.map AnyLayer.depth) = .ok pos ∧
        List.Forall₂ (fun l S => l.S = some S) ls Ss ∧
        stackLayers Ss c.retainMask = .ok st ∧
        c' = { c with layers := c'.layers, stackPositions := pos, stacked := some st } := by
  simp only [solve, bind_eq_ok, solveLayers_eq_ok hnd, attr_eq_ok, asserted_eq_ok, mapM_eq_ok,
    layer_eq_ok, pySome_eq_ok]
  constructor
  · rintro ⟨src, hs, names, hn, c1, ⟨h1, h2, h3⟩, ls, hls, pos, hpos, Ss, hSs, st, hst, h⟩
    simp only [pure, Except.pure, Except.ok.injEq] at h
    have hm : c1.retainMask = c.retainMask := by rw [h3]
    have hl : c'.layers = c1.layers := by rw [← h]
    refine ⟨src, names, ls, pos, Ss, st, hs, hn, by rw [hl]; exact h1, by rw [hl]; exact h2,
      by rw [hl]; exact hls, hpos, hSs, by rw [← hm]; exact hst, ?_⟩
    rw [← h]
    rw [h3]
  · rintro ⟨src, names, ls, pos, Ss, st, hs, hn, h1, h2, hls, hpos, hSs, hst, h⟩
    refine ⟨src, hs, names, hn, { c with layers := c'.layers }, ⟨h1, h2, rfl⟩, ls, hls, pos, hpos,
      Ss, hSs, st, hst, ?_⟩
    rw [h]; rfl

end Crystal

end Khepri
