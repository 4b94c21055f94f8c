import Verif.Lemmas.ExampleDevice
import Verif.Lemmas.SetDevice

set_option linter.unusedSectionVars false

/-!
A crystal without outer media (`void=True`) made of two plates.
-/

namespace Khepri

open Matrix

/-- The plate. -/
noncomputable def voidPlate (b : Bool) : Layer 1 :=
  { Layer.uniform exampleExpansion 4 (1 / 4) with fields := b }

/-- The crystal: two layers, no outer media. -/
noncomputable def voidCrystal : Crystal 1 :=
  { expansion := exampleExpansion, void := true,
    layers := fun x => if x = "a" ∨ x = "b" then some (.plain (voidPlate false)) else none }

/-- After `set_device(["a", "b"], [False, True])`. -/
noncomputable def voidCrystal1 : Crystal 1 :=
  { voidCrystal with
    layers := fun x => if x = "a" then some (.plain (voidPlate true))
      else if x = "b" then some (.plain (voidPlate false)) else none
    deviceStack := some ["a", "b"], globalStacking := some ["a", "b"],
    retainMask := [true, false, true, true] }

theorem void_setDevice : voidCrystal.setDevice ["a", "b"] (.inr [false, true]) = .ok voidCrystal1 := by
  unfold Crystal.setDevice
  rw [Crystal.enableFields_eq_ok]
  have e1 : Crystal.withOuter voidCrystal.void ["a", "b"] = ["a", "b"] := rfl
  have e2 : voidCrystal.ensureHalf ["a", "b"] "Sref" true voidCrystal.epsi = voidCrystal := by
    unfold Crystal.ensureHalf; simp
  have e3 : voidCrystal.ensureHalf ["a", "b"] "Strans" false voidCrystal.epse = voidCrystal := by
    unfold Crystal.ensureHalf; simp
  simp only [e1, e2, e3]
  constructor
  · intro p hp
    simp at hp
    rcases hp with rfl | rfl <;> simp [voidCrystal]
  · simp only [voidCrystal1, Crystal.mk.injEq, true_and, and_true]
    refine ⟨?_, rfl⟩
    funext x
    by_cases ha : x = "a"
    · subst ha
      simp [voidCrystal, AnyLayer.enable, Crystal.requested, voidPlate, Layer.uniform]
    · by_cases hb : x = "b"
      · subst hb
        simp [voidCrystal, AnyLayer.enable, Crystal.requested, voidPlate, Layer.uniform]
      · simp [ha, hb, voidCrystal]

/-- After `set_source` and `solve`. -/
theorem void_solve (lib : NumLib) : ∃ c3 st,
    voidCrystal1.setSource 1 1 0 0 0 none = .ok { voidCrystal1 with source := some exampleSource } ∧
    SetOrder ["a", "b"] ["a", "b"] ∧
    ({ voidCrystal1 with source := some exampleSource } : Crystal 1).solve lib ["a", "b"] = .ok c3 ∧
    c3.layers "a" = some (.plain ((voidPlate true).store examplePlate)) ∧
    c3.layers "b" = some (.plain ((voidPlate false).store examplePlate)) ∧
    c3.stackPositions = [((1 / 4 : ℝ) : EReal), ⊤] ∧ c3.globalStacking = some ["a", "b"] ∧
    c3.deviceStack = some ["a", "b"] ∧ c3.stacked = some st := by
  have h1 := example_setSource (c := voidCrystal1) rfl
  have hp : ∀ b, AnyLayer.solve lib (0, 0) 1 (.plain (voidPlate b)) =
      .ok (.plain ((voidPlate b).store examplePlate)) := fun b =>
    AnyLayer.solve_plain.2 ⟨examplePlate, example_plate_solve lib, rfl⟩
  set P : SMat (Fin 1 ⊕ Fin 1) := ⟨0, -1, -1, 0⟩ with hP
  have hPP : redheffer P P = .ok (scatteringIdentity _) := by
    rw [redheffer_left_zero rfl]; simp [hP, scatteringIdentity]
  have hst : ∃ st, stackLayers [P, P] [true, false, true, true] = .ok st := by
    simp only [stackLayers, stackForward, stackBackward, redheffer_id_left, redheffer_id_right, hPP, ok_bind,
      pyGet, List.drop, List.reverse_cons, List.reverse_nil, List.nil_append, List.cons_append,
      List.getElem?_cons_zero, List.getElem?_cons_succ, zero_add, pure, Except.pure]
    exact ⟨_, rfl⟩
  obtain ⟨st, hst⟩ := hst
  refine ⟨{ voidCrystal1 with
      source := some exampleSource
      layers := fun x => if x = "a" then some (.plain ((voidPlate true).store examplePlate))
        else if x = "b" then some (.plain ((voidPlate false).store examplePlate)) else none
      stackPositions := [((1 / 4 : ℝ) : EReal), ⊤]
      stacked := some st }, st, h1, ⟨by decide, fun x => Iff.rfl⟩, ?_, by simp, by simp, rfl, rfl, rfl, rfl⟩
  refine (Crystal.solve_eq_ok (by decide)).2 ⟨exampleSource, ["a", "b"],
    [.plain ((voidPlate true).store examplePlate), .plain ((voidPlate false).store examplePlate)],
    _, [P, P], st, rfl, rfl, ?_, ?_, ?_, ?_, ?_, hst, rfl⟩
  · intro x hx
    simp only [List.mem_cons, List.not_mem_nil, or_false] at hx
    rcases hx with rfl | rfl
    · exact ⟨_, _, by simp [voidCrystal1], hp true, by simp⟩
    · exact ⟨_, _, by simp [voidCrystal1], hp false, by simp⟩
  · intro x hx
    simp only [List.mem_cons, List.not_mem_nil, or_false, not_or] at hx
    simp [voidCrystal1, hx.1, hx.2]
  · exact .cons (by simp) (.cons (by simp) .nil)
  · simp only [Crystal.positions, List.map_cons, List.map_nil, Crystal.cumsum, AnyLayer.depth, Layer.store,
      voidPlate, Layer.uniform, voidCrystal1, voidCrystal]
    rw [pyCheck_ok (by simp)]
    simp [ok_bind, pure, Except.pure]
  · exact .cons (by simp [AnyLayer.S, Layer.store, examplePlate, hP])
      (.cons (by simp [AnyLayer.S, Layer.store, examplePlate, hP]) .nil)

end Khepri
