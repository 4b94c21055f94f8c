import Verif.Lemmas.TwistedQuery
import Verif.Lemmas.ExampleTwistedFields
import Verif.Lemmas.Requested

/-!
# C31 for stacks of layers of two lattices
-/

namespace Khepri

variable {M : ℕ}

/-- **C31 (partial).** The same as `C31_query_partial` for crystals of the joint space of two lattices, whose layers are
uniform or added with `extended=True`: every query at a depth of an outer medium or of a layer whose mask entry is true
is answered, in Fourier space and in real space. Missing: crystals without outer media, where this is false. -/
theorem C31_twisted_partial {lib : NumLib} {order : List String} {tag : ℕ} {lhs rhs : Expansion M} {se : SumExpansion M}
    {c c1 c2 c3 : Crystal (M * M)} {stack : List String} {m : Bool ⊕ List Bool} {Ls : List (TwistedLayer M)} {er et : ℂ}
    {wl : ℝ} {te tm : ℂ} {theta phi : ℝ} {kpo : Option (ℂ × ℂ)}
    (he : ∀ n, EigContract (lib.eig n)) (hse : lhs.add tag rhs = .ok se) (hc : TwistedDevice se c stack m Ls er et)
    (h1 : c.setDevice stack m = .ok c1) (h2 : c1.setSource wl te tm theta phi kpo = .ok c2)
    (ho : SetOrder ("Sref" :: (stack ++ ["Strans"])) order) (h3 : c2.solve lib order = .ok c3)
    (hpos : ∀ l ∈ Ls, 0 ≤ l.depth) {z : ℝ}
    (hz : z ≤ 0 ∨ (Ls.map TwistedLayer.depth).sum < z ∨ ∃ i, i < stack.length ∧ MaskAt m i ∧
      ((Ls.take i).map TwistedLayer.depth).sum < z ∧ z ≤ ((Ls.take (i + 1)).map TwistedLayer.depth).sum)
    (E H : Vec2 (M * M)) :
    (∃ f, c3.fourierFields z E H = .ok f) ∧
    ∀ (x y : ℝ) (kp : Option (ℂ × ℂ)), ∃ f, c3.fieldsAt x y z (some (E, H)) kp = .ok f := by
  refine twisted_query he hse hc h1 h2 ho h3 hpos ?_ E H
  refine hz.imp id (Or.imp id ?_)
  rintro ⟨i, hi, hM, k1, k2⟩
  refine ⟨i, (Crystal.maskList_get (List.getElem?_eq_getElem hi)).2 hM, ?_, ?_⟩
  · rwa [startOf, ← List.map_take]
  · rwa [startOf, ← List.map_take]

/-- Its hypotheses hold for a slab of permittivity 3 of the first of two lattices, asked at depth 1/6. -/
example : ∃ (se : SumExpansion 1) (c c1 c2 c3 : Crystal (1 * 1)) (Ls : List (TwistedLayer 1)) (κ : ℝ),
    exampleExpansion.add 2 exampleExpansion' = .ok se ∧
    TwistedDevice se c ["a"] (.inl true) Ls ((1 : ℝ) : ℂ) ((1 : ℝ) : ℂ) ∧
    c.setDevice ["a"] (.inl true) = .ok c1 ∧
    c1.setSource 1 1 0 0 0 (some ((obliqueSource κ 1 0).kp)) = .ok c2 ∧
    SetOrder ("Sref" :: (["a"] ++ ["Strans"])) ["Sref", "a", "Strans"] ∧
    c2.solve exampleLib ["Sref", "a", "Strans"] = .ok c3 ∧ (∀ l ∈ Ls, 0 ≤ l.depth) ∧ MaskAt (.inl true) 0 ∧
    ((Ls.take 0).map TwistedLayer.depth).sum < 1 / 6 ∧ 1 / 6 ≤ ((Ls.take 1).map TwistedLayer.depth).sum := by
  have hκ : (Real.sqrt (3 / 4)) ^ 2 = 3 / 4 := Real.sq_sqrt (by norm_num)
  obtain ⟨se, a, c, c1, c2, c3, st, hse, hx, hy, ha, hca, hc, h1, h2, hs, ho, h3, -⟩ := brewster_run exampleLib hκ
  refine ⟨se, c, c1, c2, c3, _, Real.sqrt (3 / 4), hse, hc, h1, ?_, ho, h3, ?_, rfl, ?_, ?_⟩
  · simpa [obliqueSource] using h2
  · simp [TwistedLayer.depth, Layer.uniform]
  · simp
  · norm_num [TwistedLayer.depth, Layer.uniform]

end Khepri
