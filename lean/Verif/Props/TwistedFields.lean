import Verif.Lemmas.ExampleTwistedFields
import Verif.Props.Twisted

/-!
# C86: fields inside stacks of layers of two lattices
-/

namespace Khepri

open Matrix

variable {M : ℕ}

section
variable {lib : NumLib} {order : List String} {tag : ℕ} {lhs rhs : Expansion M} {se : SumExpansion M}
  {c c1 c2 c3 : Crystal (M * M)} {stack : List String} {m : Bool ⊕ List Bool} {Ls : List (TwistedLayer M)} {er et : ℝ}
  {wl : ℝ} {te tm : ℂ} {theta phi : ℝ} {kpo : Option (ℂ × ℂ)}

/-- **C86**, transverse components. At every depth where fields were requested, up to the end of the stack (and after
it when it ends in vacuum), the four transverse components are those of the one field that obeys Maxwell's equations
in every medium of the joint space, is continuous across the interfaces, and is lit by the incident waves alone. -/
theorem C86_transverse_partial (he : ∀ n, EigContract (lib.eig n)) (hse : lhs.add tag rhs = .ok se)
    (hc : TwistedDevice se c stack m Ls er et)
    (h1 : c.setDevice stack m = .ok c1) (h2 : c1.setSource wl te tm theta phi kpo = .ok c2)
    (ho : SetOrder ("Sref" :: (stack ++ ["Strans"])) order) (h3 : c2.solve lib order = .ok c3)
    {src : Source} (hs : c2.source = some src) {kp : ℝ × ℝ} (hkp : src.kp = (↑kp.1, ↑kp.2))
    (hpos : ∀ l ∈ Ls, 0 ≤ l.depth) :
    ∃ Ms, TwistedEquations lib.jv1 lhs rhs (orderKx se.exp kp wl) (orderKy se.exp kp wl) (2 * Real.pi / wl) Ls Ms ∧
      ∀ a : Vec2 (M * M), ∃ Φ, DeviceSolution (orderKx se.exp kp wl) (orderKy se.exp kp wl) er et
          (2 * Real.pi / wl) Ms (Ls.map TwistedLayer.depth) a Φ ∧
        (∀ Ψ, DeviceSolution (orderKx se.exp kp wl) (orderKy se.exp kp wl) er et
          (2 * Real.pi / wl) Ms (Ls.map TwistedLayer.depth) a Ψ → Ψ = Φ) ∧
        ∀ z, RequestedAt (Ls.map TwistedLayer.depth) (Crystal.maskList stack m) z → Unclamped c3 z →
          (z ≤ (Ls.map TwistedLayer.depth).sum ∨ et = 1) → ∀ b E H,
          outerField (orderKx se.exp kp wl) (orderKy se.exp kp wl) er ⟨a, b⟩ = ⟨E, H⟩ →
          ∃ f, c3.fourierFields z E H = .ok f ∧ f.transverse = Φ z := by
  obtain ⟨-, -, -, Ms, hM, hA⟩ := twisted_fields he hse hc h1 h2 ho h3 hs hkp hpos
  refine ⟨Ms, hM, fun a => ?_⟩
  obtain ⟨Φ, hΦ, hU, hQ⟩ := hA a
  refine ⟨Φ, hΦ, hU, fun z hz hu hD b E H hE => ?_⟩
  obtain ⟨f, f1, f2, f3, -⟩ := hQ z hz hu b E H hE
  refine ⟨f, f1, ?_⟩
  rcases le_or_gt z (Ls.map TwistedLayer.depth).sum with hzD | hzD
  · exact f2 hzD
  · obtain rfl := hD.resolve_left (not_le.2 hzD)
    obtain ⟨t, ht⟩ := hΦ.outgoing
    exact (f3 hzD t ht).2 (by simp)

/-- **C86**, components along the axis. `Hz` is right at every depth where fields were requested, `Ez` in the outer
media and in uniform layers. In a layer of one of the lattices what is returned as `Ez` is the displacement: the
permittivity of the layer times the `Ez` that belongs to the transverse components. -/
theorem C86_longitudinal_partial (he : ∀ n, EigContract (lib.eig n)) (hse : lhs.add tag rhs = .ok se)
    (hc : TwistedDevice se c stack m Ls er et)
    (h1 : c.setDevice stack m = .ok c1) (h2 : c1.setSource wl te tm theta phi kpo = .ok c2)
    (ho : SetOrder ("Sref" :: (stack ++ ["Strans"])) order) (h3 : c2.solve lib order = .ok c3)
    {src : Source} (hs : c2.source = some src) {kp : ℝ × ℝ} (hkp : src.kp = (↑kp.1, ↑kp.2))
    (hpos : ∀ l ∈ Ls, 0 ≤ l.depth) :
    ∀ z, RequestedAt (Ls.map TwistedLayer.depth) (Crystal.maskList stack m) z → Unclamped c3 z → ∀ E H,
      ∃ f, c3.fourierFields z E H = .ok f ∧
        ∀ C, TwistedPermittivityAt lib.jv1 lhs rhs Ls er et z C →
          (¬ InLatticeLayer Ls z → LongitudinalAt (orderKx se.exp kp wl) (orderKy se.exp kp wl) C f) ∧
          (InLatticeLayer Ls z → ∀ g, LongitudinalAt (orderKx se.exp kp wl) (orderKy se.exp kp wl) C g →
            g.transverse = f.transverse → f.sz = C *ᵥ g.sz ∧ f.uz = g.uz) := by
  obtain ⟨her, het, hout, Ms, hM, hA⟩ := twisted_fields he hse hc h1 h2 ho h3 hs hkp hpos
  intro z hz hu E H
  obtain ⟨a, b, hab⟩ := hout E H
  obtain ⟨Φ, hΦ, hU, hQ⟩ := hA a
  obtain ⟨f, f1, -, -, ic, hic, i1, i2, i3⟩ := hQ z hz hu b E H hab
  refine ⟨f, f1, fun C hC => ?_⟩
  have hs' := (Prod.mk.injEq _ _ _ _ ▸ hic : _ ∧ _).1
  have hu' := (Prod.mk.injEq _ _ _ _ ▸ hic : _ ∧ _).2
  have num : ∀ {eps : ℂ}, (0 < M * M → eps ≠ 0) → ic = .num (1 / eps) →
      LongitudinalAt (orderKx se.exp kp wl) (orderKy se.exp kp wl) (eps • 1) f := by
    intro eps h0 h
    refine ⟨?_, hu'⟩
    rw [hs', h]
    funext i
    have := h0 i.pos
    simp only [smul_mulVec, one_mulVec, Pi.smul_apply, smul_eq_mul]
    field_simp
  constructor
  · intro hnot
    rcases hC with ⟨hz0, rfl⟩ | ⟨hzD, rfl⟩ | ⟨i, l, hl, k1, k2, hp⟩
    · exact num (fun _ => by exact_mod_cast her) (by simpa using i1 hz0)
    · exact num (fun _ => by exact_mod_cast het) (by simpa using i2 hzD)
    · have := i3 i l hl k1 k2
      cases l with
      | uniform eps d =>
        obtain rfl : C = eps • 1 := hp
        refine num (fun hpos => ?_) this
        obtain ⟨hlt, hl'⟩ := List.getElem?_eq_some_iff.1 hl
        obtain ⟨C', hC', hdet, -⟩ := (List.forall₂_iff_get.1 hM).2 i hlt (by rw [← hM.length_eq]; exact hlt)
        rw [List.get_eq_getElem, hl'] at hC'
        obtain rfl : C' = eps • 1 := hC'
        rintro rfl
        have : Nonempty (Fin (M * M)) := ⟨⟨0, hpos⟩⟩
        exact hdet (by simp)
      | first l => exact (hnot ⟨i, _, hl, k1, k2, fun _ _ h => nomatch h⟩).elim
      | second l => exact (hnot ⟨i, _, hl, k1, k2, fun _ _ h => nomatch h⟩).elim
  · rintro ⟨i, l, hl, k1, k2, hnu⟩ g ⟨g1, g2⟩ hgt
    have e := congrArg Tang.E hgt
    have h := congrArg Tang.H hgt
    simp only [Fields6.transverse, Sum.elim_eq_iff] at e h
    obtain ⟨ex, ey⟩ := e
    obtain ⟨hx, hy⟩ := h
    have hone : ic = .num 1 := by
      rw [i3 i l hl k1 k2]
      cases l with
      | uniform eps d => exact (hnu _ _ rfl).elim
      | first l => rfl
      | second l => rfl
    constructor
    · rw [g1, hs', hone, hx, hy]
      funext j
      simp
    · rw [g2, hu', ex, ey]

end

/-- **C86** is false for `Ez` in the layers of one lattice: in a slab of permittivity 3 added with `extended=True`
and lit from vacuum at Brewster's angle, the transverse components at the end of the slab are right and the returned
`Ez` is not the one that belongs to them. The hypotheses of the theorems above hold for this run. -/
theorem C86_ez_counterexample : ∃ (lhs rhs : Expansion 1) (se : SumExpansion 1) (a c c1 c2 c3 : Crystal (1 * 1))
    (Ls : List (TwistedLayer 1)) (src : Source) (kp : ℝ × ℝ) (Ms : List (Mat2 (1 * 1) × Mat2 (1 * 1) × ℝ))
    (v E H : Vec2 (1 * 1)) (Φ : ℝ → Tang (Fin (1 * 1) ⊕ Fin (1 * 1))) (f : Fields6 (1 * 1))
    (C : Matrix (Fin (1 * 1)) (Fin (1 * 1)) ℂ),
    lhs.add 2 rhs = .ok se ∧ a = { expansion := se.exp, layers := fun _ => none } ∧
    a.addExtended se "a" (Layer.uniform lhs 3 (1 / 3)) = .ok c ∧
    TwistedDevice se c ["a"] (.inl true) Ls ((1 : ℝ) : ℂ) ((1 : ℝ) : ℂ) ∧ (∀ l ∈ Ls, 0 ≤ l.depth) ∧
    c.setDevice ["a"] (.inl true) = .ok c1 ∧ c1.setSource 1 1 0 0 0 (some (↑kp.1, ↑kp.2)) = .ok c2 ∧
    SetOrder ("Sref" :: (["a"] ++ ["Strans"])) ["Sref", "a", "Strans"] ∧
    c2.solve exampleLib ["Sref", "a", "Strans"] = .ok c3 ∧ c2.source = some src ∧ src.kp = (↑kp.1, ↑kp.2) ∧
    TwistedEquations exampleLib.jv1 lhs rhs (orderKx se.exp kp 1) (orderKy se.exp kp 1) (2 * Real.pi / 1) Ls Ms ∧
    DeviceSolution (orderKx se.exp kp 1) (orderKy se.exp kp 1) 1 1 (2 * Real.pi / 1) Ms
      (Ls.map TwistedLayer.depth) v Φ ∧
    (∃ b, outerField (orderKx se.exp kp 1) (orderKy se.exp kp 1) 1 ⟨v, b⟩ = ⟨E, H⟩) ∧
    RequestedAt (Ls.map TwistedLayer.depth) (Crystal.maskList ["a"] (.inl true)) (1 / 3) ∧ Unclamped c3 (1 / 3) ∧
    c3.fourierFields (1 / 3) E H = .ok f ∧ f.transverse = Φ (1 / 3) ∧
    TwistedPermittivityAt exampleLib.jv1 lhs rhs Ls 1 1 (1 / 3) C ∧
    ¬ LongitudinalAt (orderKx se.exp kp 1) (orderKy se.exp kp 1) C f := by
  have hκ : (Real.sqrt (3 / 4)) ^ 2 = 3 / 4 := Real.sq_sqrt (by norm_num)
  have hκ0 : Real.sqrt (3 / 4) ≠ 0 := by positivity
  set κ := Real.sqrt (3 / 4)
  obtain ⟨se, a, c, c1, c2, c3, st, hse, hx, hy, ha, hca, hc, h1, h2, hs, ho, h3, hst, hS, hu⟩ :=
    brewster_run exampleLib hκ
  set Ls : List (TwistedLayer 1) := [.first (Layer.uniform exampleExpansion 3 (1 / 3))] with hLs
  have hpos : ∀ l ∈ Ls, 0 ≤ l.depth := by simp [hLs, TwistedLayer.depth, Layer.uniform]
  have hkp : (obliqueSource κ 1 0).kp = (((2 * Real.pi * κ, (0 : ℝ)).1 : ℂ), ((2 * Real.pi * κ, (0 : ℝ)).2 : ℂ)) := by
    simp [obliqueSource]
  have hsum : (Ls.map TwistedLayer.depth).sum = 1 / 3 := by simp [hLs, TwistedLayer.depth, Layer.uniform]
  have hs0 : startOf (Ls.map TwistedLayer.depth) 0 = 0 := by simp [startOf]
  have hs1 : startOf (Ls.map TwistedLayer.depth) (0 + 1) = 1 / 3 := by
    simp [startOf, hLs, TwistedLayer.depth, Layer.uniform]
  have hreq : RequestedAt (Ls.map TwistedLayer.depth) (Crystal.maskList ["a"] (.inl true)) (1 / 3) :=
    .inr (.inr ⟨0, by simp [Crystal.maskList], by rw [hs0]; norm_num, hs1.ge⟩)
  obtain ⟨st', Ms', hst', hM', hsc⟩ := C85_maxwell exampleLib_contract hse hc h1 h2 ho h3 hs hkp
  rw [hst, Option.some.injEq] at hst'
  subst hst'
  obtain ⟨Ms, hM, hA⟩ := C86_transverse_partial exampleLib_contract hse hc h1 h2 ho h3 hs hkp hpos
  obtain rfl := hM'.unique hM
  obtain ⟨Φ, hΦ, -, hQ⟩ := hA fun _ => 1
  obtain ⟨f, hf, hT⟩ := hQ (1 / 3) hreq (hu _) (.inr rfl) 0 _ _ rfl
  have hzl : (1 / 3 : ℝ) ≤ startOf (Ls.map TwistedLayer.depth) (0 + 1) := hs1.ge
  have hin : startOf (Ls.map TwistedLayer.depth) 0 < 1 / 3 := by rw [hs0]; norm_num
  refine ⟨_, _, se, a, c, c1, c2, c3, Ls, _, _, Ms', _, _, _, Φ, f, (3 : ℂ) • 1, hse, ha, hca, hc, hpos, h1, h2, ho, h3,
    hs, hkp, hM, hΦ, ⟨0, rfl⟩, hreq, hu _, hf, hT, ?_, ?_⟩
  · refine .inr (.inr ⟨0, _, rfl, hin, hzl, (3 : ℂ) • 1, rfl, fun r c i j => ?_⟩)
    rw [if_pos (Subsingleton.elim _ _), Matrix.smul_apply, Matrix.smul_apply, Matrix.one_apply, Matrix.one_apply,
      if_pos (Subsingleton.elim (α := Fin 1) _ _), if_pos (Subsingleton.elim _ _)]
  · intro hlong
    obtain ⟨f', hf', hC'⟩ := C86_longitudinal_partial exampleLib_contract hse hc h1 h2 ho h3 hs hkp hpos (1 / 3) hreq
      (hu _) _ _
    rw [hf, Except.ok.injEq] at hf'
    subst hf'
    have hperm : TwistedPermittivityAt exampleLib.jv1 exampleExpansion exampleExpansion' Ls 1 1 (1 / 3) ((3 : ℂ) • 1) := by
      refine .inr (.inr ⟨0, _, rfl, hin, hzl, (3 : ℂ) • 1, rfl, fun r c i j => ?_⟩)
      rw [if_pos (Subsingleton.elim _ _), Matrix.smul_apply, Matrix.smul_apply, Matrix.one_apply, Matrix.one_apply,
        if_pos (Subsingleton.elim (α := Fin 1) _ _), if_pos (Subsingleton.elim _ _)]
    have hD := ((hC' _ hperm).2 ⟨0, _, rfl, hin, hzl, fun _ _ h => nomatch h⟩ f hlong rfl).1
    have hz0 : f.sz 0 = 0 := by
      have := congrFun hD 0
      simp only [smul_mulVec, one_mulVec, Pi.smul_apply, smul_eq_mul] at this
      linear_combination (-1 / 2 : ℂ) * this
    have hcr := congrFun hlong.1 0
    simp only [smul_mulVec, one_mulVec, Pi.smul_apply, smul_eq_mul, hz0, hx, hy] at hcr
    obtain ⟨b, hb⟩ := hΦ.incident
    obtain ⟨t, ht⟩ := hΦ.outgoing
    have hch : MaxwellChain Ms' (Φ 0) (Φ (Ls.map TwistedLayer.depth).sum) := by
      refine hΦ.field.chain (by simpa using hpos) ?_
      rw [List.forall₂_map_right_iff]
      refine List.Forall₂.flip (hM.imp ?_)
      rintro l X ⟨C, -, -, rfl⟩
      rfl
    rw [hb, ht] at hch
    obtain ⟨-, e2⟩ := (hsc _ _).2 hch
    rw [hS] at e2
    have hH := congrFun (congrArg Tang.H (hT.trans (by rw [← hsum, ht]))) (.inr 0)
    have ht0 : t (.inl 0) = -1 := by
      have := congrFun e2 (.inl 0)
      simpa [neg_mulVec] using this
    have huy : f.uy 0 = 0 := by
      have hκc : (κ : ℂ) ≠ 0 := by exact_mod_cast hκ0
      have : (κ : ℂ) * f.uy 0 = 0 := by simpa using hcr
      exact (mul_eq_zero.1 this).resolve_left hκc
    have hkz : outerKz (1 - κ ^ 2) ≠ 0 := outerKz_eq_zero.not.2 (by rw [hκ]; norm_num)
    simp [Fields6.transverse, outerField, maxwellQ_mulVec, hx, hy, huy, ht0, hkz] at hH

end Khepri
