import Verif.Lemmas.ExampleEmpty
import Verif.Lemmas.FieldsUser

/-!
Fields of the example devices.
-/

set_option linter.unusedSectionVars false

namespace Khepri

open Matrix

section
variable {ι : Type} [Fintype ι] [DecidableEq ι]

theorem normal_outer {kx ky : ι → ℝ} (hx : ∀ i, kx i = 0) (hy : ∀ i, ky i = 0) (er : ℝ) (p : Port (ι ⊕ ι)) (i : ι) :
    (outerField kx ky er p).H (.inl i) = er * ((p.bwd (.inr i) - p.fwd (.inr i)) / (Complex.I * outerKz er)) ∧
    (outerField kx ky er p).H (.inr i) = -(er * ((p.bwd (.inl i) - p.fwd (.inl i)) / (Complex.I * outerKz er))) := by
  have h1 : (fun i => (kx i : ℂ)) = 0 := by funext i; simp [hx]
  have h2 : (fun i => (ky i : ℂ)) = 0 := by funext i; simp [hy]
  simp only [outerField, maxwellQ, h1, h2]
  constructor
  · simp [fromBlocks_mulVec, hx, hy, Matrix.smul_mulVec, Function.comp_def]
  · simp [fromBlocks_mulVec, hx, hy, Matrix.smul_mulVec, Function.comp_def, Matrix.neg_mulVec]

end

theorem mtrans_null {n : Type} [Fintype n] [DecidableEq n] (P Q : Matrix n n ℂ) (t : ℝ) :
    mtrans P Q t ⟨0, 0⟩ = ⟨0, 0⟩ := by
  symm
  rw [← maxwellTransfer_iff, MaxwellTransfer]
  have : Sum.elim (0 : n → ℂ) (0 : n → ℂ) = 0 := by funext j; cases j <;> rfl
  simp [this]

theorem outerKz_sq_pos {s : ℝ} (hs : 0 < s) : outerKz (s ^ 2) = s := by
  rw [outerKz, if_pos (by positivity), Real.sqrt_sq hs.le]

/-- The example plate between vacuum and a medium of index `s`: everything `fields_core` asks for. -/
theorem example_fields {s : ℝ} (hs : 0 < s) (b : Bool) : ∃ c1 c2 c3,
    (exampleCrystal s).setDevice ["a"] (.inl b) = .ok c1 ∧ c1.setSource 1 1 0 0 0 none = .ok c2 ∧
    c2.source = some exampleSource ∧ SetOrder ("Sref" :: (["a"] ++ ["Strans"])) ["Sref", "a", "Strans"] ∧
    c2.solve exampleLib ["Sref", "a", "Strans"] = .ok c3 ∧ c3.source = some exampleSource ∧
    c3.stacked.isSome = true ∧ c3.expansion = exampleExpansion ∧ ∀ z, Unclamped c3 z := by
  obtain ⟨c1, c2, c3, st, h1, h2, h3, ho, h4, h5, -, -, ⟨lr, r1, -⟩, ⟨l, l1, -⟩, ⟨lt, t1, -⟩, -, g1, g2, g3, -⟩ :=
    example_solve exampleLib hs b
  refine ⟨c1, c2, c3, h1, h2, h3, ho, h4, g2, by rw [h5]; rfl, g3, fun z => unclamped_of_imag g1 ?_ z⟩
  intro x hx l' L e1 e2 i
  simp only [List.mem_cons, List.not_mem_nil, or_false] at hx
  rcases hx with rfl | rfl | rfl
  · rw [r1] at e1
    simp only [Option.some.injEq] at e1
    subst e1
    simp only [AnyLayer.L, Layer.store, exampleRef, Option.ite_none_right_eq_some, Option.some.injEq] at e2
    obtain ⟨-, rfl⟩ := e2
    cases i <;> simp [stack2]
  · rw [l1] at e1
    simp only [Option.some.injEq] at e1
    subst e1
    simp only [AnyLayer.L, Layer.store, examplePlate, Option.ite_none_right_eq_some, Option.some.injEq] at e2
    obtain ⟨-, rfl⟩ := e2
    cases i <;> simp [stack2]
  · rw [t1] at e1
    simp only [Option.some.injEq] at e1
    subst e1
    simp only [AnyLayer.L, Layer.store, exampleTrans, Option.ite_none_right_eq_some, Option.some.injEq] at e2
    obtain ⟨-, rfl⟩ := e2
    cases i <;> simp [stack2]

/-- Nothing is clamped in the empty device when the order propagates. -/
theorem empty_unclamped {c3 : Crystal 1} {κ : ℝ} (hκ : 0 ≤ 1 - κ ^ 2)
    (h : ∀ x ∈ ["Sref", "Strans"], ∃ l : Layer 1, c3.layers x = some (.plain l) ∧ l.depth = 0 ∧ l.W = some 1 ∧
      l.L = some (stack2 fun _ => Complex.I * outerKz (1 - κ ^ 2)))
    (hg : c3.globalStacking = some ["Sref", "Strans"]) (z : ℝ) : Unclamped c3 z := by
  refine unclamped_of_imag hg ?_ z
  intro x hx l' L e1 e2 i
  obtain ⟨l, h1, -, -, h2⟩ := h x hx
  rw [h1] at e1
  simp only [Option.some.injEq] at e1
  subst e1
  simp only [AnyLayer.L] at e2
  rw [h2] at e2
  simp only [Option.some.injEq] at e2
  subst e2
  cases i <;> simp [stack2, outerKz, hκ]

theorem example_kx0 (wl : ℝ) (i : Fin 1) : orderKx exampleExpansion 0 wl i = 0 := by
  simp [orderKx, exampleExpansion]

theorem example_ky0 (wl : ℝ) (i : Fin 1) : orderKy exampleExpansion 0 wl i = 0 := by
  simp [orderKy, exampleExpansion]

/-- Light comes out behind the example plate. -/
theorem example_transmits {Ms : List (Mat2 1 × Mat2 1 × ℝ)} {a t : Vec2 1} {Φ : ℝ → Tang (Fin 1 ⊕ Fin 1)} {s d : ℝ}
    (hd : 0 ≤ d) (hlen : Ms.length = 1)
    (h : DeviceSolution (orderKx exampleExpansion 0 1) (orderKy exampleExpansion 0 1) 1 (s ^ 2)
      (2 * Real.pi / 1) Ms [d] a Φ)
    (ht : Φ ([d] : List ℝ).sum = outerField (orderKx exampleExpansion 0 1) (orderKy exampleExpansion 0 1) (s ^ 2) ⟨t, 0⟩)
    (h0 : t = 0) : a = 0 := by
  subst h0
  obtain ⟨b, hb⟩ := h.incident
  obtain ⟨M, rfl⟩ := List.length_eq_one_iff.1 hlen
  have e0 : ∀ er, outerField (orderKx exampleExpansion 0 1) (orderKy exampleExpansion 0 1) er
      (⟨0, 0⟩ : Port (Fin 1 ⊕ Fin 1)) = ⟨0, 0⟩ := by
    intro er
    simp only [outerField, Tang.mk.injEq, add_zero, true_and]
    have : (fun j : Fin 1 ⊕ Fin 1 => ((0 : Vec2 1) j - (0 : Vec2 1) j) / (Complex.I * outerKz (er -
        orderKx exampleExpansion 0 1 (j.elim id id) ^ 2 - orderKy exampleExpansion 0 1 (j.elim id id) ^ 2))) = 0 := by
      funext j; simp
    rw [this, mulVec_zero]
  have hst := h.field.step (by simpa using hd) (i := 0) (M := M) rfl
  have s1 : startOf [d] (0 + 1) = ([d] : List ℝ).sum := by simp [startOf]
  have s0 : startOf [d] 0 = 0 := by simp [startOf]
  rw [s1, ht, e0, s0, ← mtrans_null] at hst
  have := mtrans_injective hst
  rw [hb] at this
  have hE := congrArg Tang.E this
  have hE' : a + b = 0 := hE.symm
  have hH : ∀ j, b j - a j = 0 := by
    intro j
    have n := normal_outer (example_kx0 1) (example_ky0 1) 1 (⟨a, b⟩ : Port (Fin 1 ⊕ Fin 1))
    rw [← this] at n
    have h1 : outerKz (1 : ℝ) = 1 := by have := outerKz_sq_pos one_pos; simpa using this
    rcases j with j | j
    · have := (n j).2; simpa [h1] using this
    · have := (n j).1; simpa [h1] using this
  funext j
  have k1 := congrFun hE' j
  have k2 := hH j
  simp only [Pi.add_apply, Pi.zero_apply] at k1 ⊢
  have k3 : b j = a j := sub_eq_zero.1 k2
  rw [k3, ← two_mul] at k1
  simpa using k1

end Khepri
