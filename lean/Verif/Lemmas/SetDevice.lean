import Verif.Spec.Crystal
import Verif.Lemmas.Crystal

set_option linter.unusedSectionVars false

namespace Khepri

variable {N : ℕ}

theorem AnyLayer.enable_enable (a b : Bool) (l : AnyLayer N) :
    (l.enable a).enable b = l.enable (a || b) := by
  cases l <;> simp [AnyLayer.enable, Bool.or_assoc]

theorem AnyLayer.enable_false (l : AnyLayer N) : l.enable false = l := by
  cases l <;> simp [AnyLayer.enable]

namespace Crystal

/-- Whether some entry of the zipped mask requests `x`. -/
def requested (x : String) (l : List (String × Bool)) : Bool := l.any fun p => p.1 == x && p.2

/-- What the loop enabling the fields does. -/
theorem enableFields_eq_ok : ∀ {l : List (String × Bool)} {c c' : Crystal N},
    c.enableFields l = .ok c' ↔ (∀ p ∈ l, (c.layers p.1).isSome) ∧
      c' = { c with layers := fun x => (c.layers x).map (AnyLayer.enable (requested x l)) } := by
  intro l
  induction l with
  | nil =>
    intro c c'
    have : (fun x => (c.layers x).map (AnyLayer.enable (requested x []))) = c.layers := by
      funext x
      simp only [requested, List.any_nil]
      cases c.layers x with
      | none => rfl
      | some l => simp [AnyLayer.enable_false]
    rw [this]
    simp only [enableFields, Except.ok.injEq, List.not_mem_nil, false_implies, implies_true, true_and]
    exact eq_comm
  | cons q l ih =>
    intro c c'
    obtain ⟨x, b⟩ := q
    simp only [enableFields, bind_eq_ok, layer_eq_ok, ih, List.forall_mem_cons]
    have key : ∀ a, c.layers x = some a →
        (fun y => ((c.setLayer x (a.enable b)).layers y).map (AnyLayer.enable (requested y l))) =
        fun y => (c.layers y).map (AnyLayer.enable (requested y ((x, b) :: l))) := by
      intro a ha
      funext y
      by_cases hy : y = x
      · subst hy
        simp [setLayer, ha, requested, AnyLayer.enable_enable]
      · have hxy : (x == y) = false := by simp [Ne.symm hy]
        simp [setLayer, hy, requested, hxy]
    constructor
    · rintro ⟨a, ha, h1, h2⟩
      refine ⟨⟨by simp [ha], fun p hp => ?_⟩, ?_⟩
      · have := h1 p hp
        by_cases hy : p.1 = x
        · simp [hy, ha]
        · simpa [setLayer, hy] using this
      · rw [h2, key a ha]; rfl
    · rintro ⟨⟨h0, h1⟩, h2⟩
      obtain ⟨a, ha⟩ := Option.isSome_iff_exists.1 h0
      refine ⟨a, ha, fun p hp => ?_, ?_⟩
      · by_cases hy : p.1 = x
        · simp [setLayer, hy]
        · simpa [setLayer, hy] using h1 p hp
      · rw [key a ha, h2]; rfl

/-- The mask as a list, `crystal.py:155-158`. -/
def maskList (stack : List String) : Bool ⊕ List Bool → List Bool
  | .inl b => List.replicate stack.length b
  | .inr l => l

/-- `set_device` builds a standard device out of registered layers. -/
theorem setDevice_standard {c : Crystal N} {stack : List String} {m : Bool ⊕ List Bool}
    {Ls : List (Layer N)} (hv : c.void = false) (hr : c.layers "Sref" = none)
    (ht : c.layers "Strans" = none)
    (hL : List.Forall₂ (fun x l => c.layers x = some (.plain l) ∧ l.form.isLayer ∧
      l.expansion = c.expansion) stack Ls)
    (hm : (maskList stack m).length = stack.length) :
    ∃ c', c.setDevice stack m = .ok c' ∧
      StandardDevice c' stack (maskList stack m)
        { Layer.halfInfinite c.expansion true c.epsi with fields := true }
        (List.zipWith (fun x l => { l with
          fields := l.fields || requested x (stack.zip (maskList stack m)) }) stack Ls)
        { Layer.halfInfinite c.expansion false c.epse with fields := true } c.epsi c.epse ∧
      c'.expansion = c.expansion ∧ c'.source = c.source ∧ c'.epsi = c.epsi ∧ c'.epse = c.epse := by
  set fm := maskList stack m with hfm
  have hreg : ∀ x ∈ stack, (c.layers x).isSome := by
    clear hm hfm
    intro x hx
    induction hL with
    | nil => simp at hx
    | cons h1 _ ih =>
      rcases List.mem_cons.1 hx with rfl | hx
      · simp [h1.1]
      · exact ih hx
  have hnr : "Sref" ∉ stack := fun h => by simpa [hr] using hreg _ h
  have hnt : "Strans" ∉ stack := fun h => by simpa [ht] using hreg _ h
  set lr : Layer N := { Layer.halfInfinite c.expansion true c.epsi with fields := true } with hlr
  set lt : Layer N := { Layer.halfInfinite c.expansion false c.epse with fields := true } with hlt
  set names := "Sref" :: (stack ++ ["Strans"]) with hnames
  set lay2 : String → Option (AnyLayer N) :=
    Function.update (Function.update c.layers "Sref" (some (.plain lr))) "Strans" (some (.plain lt))
    with hlay2
  have hne : ("Sref" : String) ≠ "Strans" := by decide
  have hc2 : ((c.ensureHalf names "Sref" true c.epsi).ensureHalf names "Strans" false c.epse) =
      { c with layers := lay2 } := by
    simp [ensureHalf, hnames, hr, ht, setLayer, hne.symm, hlay2, hlr, hlt]
  let c3 : Crystal N := { c with
    layers := lay2, deviceStack := some stack, globalStacking := some names,
    retainMask := true :: (fm ++ [true]) }
  have hset : c.setDevice stack m = c3.enableFields (names.zip (true :: (fm ++ [true]))) := by
    unfold setDevice
    simp only [withOuter, hv, Bool.false_eq_true, if_false]
    have : (c.ensureHalf names "Sref" true c.epsi).epse = c.epse := by
      unfold ensureHalf setLayer; split_ifs <;> rfl
    rw [← hnames]
    conv_lhs => rw [hc2]
    cases m <;> rfl
  have hzip : names.zip (true :: (fm ++ [true])) =
      ("Sref", true) :: (stack.zip fm ++ [("Strans", true)]) := by
    simp only [hnames, List.zip_cons_cons]
    rw [List.zip_append hm.symm]; rfl
  have hall : ∀ p ∈ names.zip (true :: (fm ++ [true])), (c3.layers p.1).isSome := by
    rw [hzip]
    intro p hp
    simp only [List.mem_cons, List.mem_append, List.not_mem_nil, or_false] at hp
    rcases hp with rfl | hp | rfl
    · simp [c3, hlay2, hne]
    · have hx := (List.of_mem_zip (a := p.1) (b := p.2) hp).1
      have h1 : p.1 ≠ "Sref" := fun h => hnr (h ▸ hx)
      have h2 : p.1 ≠ "Strans" := fun h => hnt (h ▸ hx)
      simpa [c3, hlay2, h1, h2] using hreg _ hx
    · simp [c3, hlay2]
  refine ⟨_, hset.trans (enableFields_eq_ok.2 ⟨hall, rfl⟩), ?_, rfl, rfl, rfl, rfl⟩
  have hreqr : requested "Sref" (names.zip (true :: (fm ++ [true]))) = true := by
    rw [hzip]; simp [requested]
  have hreqt : requested "Strans" (names.zip (true :: (fm ++ [true]))) = true := by
    rw [hzip]; simp [requested]
  have hreq : ∀ x ∈ stack, requested x (names.zip (true :: (fm ++ [true]))) =
      requested x (stack.zip fm) := by
    intro x hx
    have h1 : ("Sref" == x) = false := by
      rw [beq_eq_false_iff_ne]; exact fun h => hnr (h ▸ hx)
    have h2 : ("Strans" == x) = false := by
      rw [beq_eq_false_iff_ne]; exact fun h => hnt (h ▸ hx)
    rw [hzip]; simp [requested, h1, h2]
  refine ⟨hv, rfl, rfl, rfl, hm, ?_, ?_, rfl, rfl, rfl, ?_, ?_, rfl, rfl, rfl, ?_⟩
  · show (lay2 "Sref").map _ = _
    rw [hreqr]
    simp [hlay2, hne, AnyLayer.enable, hlr]
  · simp [hlr, Layer.halfInfinite]
  · show (lay2 "Strans").map _ = _
    rw [hreqt]
    simp [hlay2, AnyLayer.enable, hlt]
  · simp [hlt, Layer.halfInfinite]
  · show List.Forall₂ (fun x l => (lay2 x).map (AnyLayer.enable (requested x _)) = some (.plain l) ∧
      l.form.isLayer ∧ l.expansion = c.expansion) stack _
    generalize hg : (fun x (l : Layer N) => { l with fields := l.fields || requested x (stack.zip fm) }) = g
    have hlay : ∀ x ∈ stack, lay2 x = c.layers x := by
      intro x hx
      have h1 : x ≠ "Sref" := fun h => hnr (h ▸ hx)
      have h2 : x ≠ "Strans" := fun h => hnt (h ▸ hx)
      simp [hlay2, h1, h2]
    have : ∀ s : List String, ∀ M : List (Layer N), (∀ x ∈ s, x ∈ stack) →
        List.Forall₂ (fun x l => c.layers x = some (.plain l) ∧ l.form.isLayer ∧
          l.expansion = c.expansion) s M →
        List.Forall₂ (fun x l => (lay2 x).map (AnyLayer.enable
          (requested x (names.zip (true :: (fm ++ [true]))))) = some (.plain l) ∧
          l.form.isLayer ∧ l.expansion = c.expansion) s (List.zipWith g s M) := by
      intro s M hs hM
      induction hM with
      | nil => exact .nil
      | cons h1 _ ih =>
        refine .cons ⟨?_, ?_, ?_⟩ (ih fun y hy => hs y (by simp [hy]))
        · rw [hlay _ (hs _ (by simp)), hreq _ (hs _ (by simp)), h1.1]
          simp [AnyLayer.enable, ← hg]
        · rw [← hg]; exact h1.2.1
        · rw [← hg]; exact h1.2.2
    exact this stack Ls (fun _ h => h) hL

end Crystal

end Khepri
