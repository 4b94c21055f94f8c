import Verif.Lemmas.ExampleRun
import Verif.Lemmas.Twisted
import Verif.Props.Extension

set_option linter.unusedSectionVars false

/-!
# Example: a stack of layers of two lattices
-/

namespace Khepri

open Matrix

variable {N : ℕ}

/-- A vacuum layer reflects nothing. -/
theorem vacuum_s11 {lib : NumLib} {e : Expansion N} {d : ℝ} {kp : ℂ × ℂ} {wl : ℝ} {r : Solved N}
    (h : (Form.uniform 1).solve lib e d kp wl = .ok r) : r.S.s11 = 0 := by
  simp only [Form.solve, bind_eq_ok] at h
  obtain ⟨⟨kx, ky, kz⟩, hk, ⟨W0, V0⟩, h0, ⟨W, V, L⟩, hL, S, hS, IC, -, h⟩ := h
  simp only [pure, Except.pure, Except.ok.injEq] at h
  subst h
  obtain ⟨-, e1, e2⟩ := freeSpaceEigenmodes_eq_ok.1 h0
  obtain ⟨-, -, e3, e4, e5⟩ := solveUniformLayer_eq_ok.1 hL
  simp only at e1 e2 e3 e4 e5 hS ⊢
  have hV : V = V0 := by rw [e5, e2, e4]
  obtain ⟨A, B, X, T, hA, hB, -, -, -, hVd, -, -, h11, -⟩ := buildScatmat_eq_ok.1 hS
  have : B = 0 := by rw [hB, e1, e3, hV, ← hV, inv_mul_of_det hVd, inv_one, Matrix.one_mul, sub_self]
  rw [h11, this]
  simp

/-- When the parts of a device can be solved and cascaded, `solve` returns. -/
theorem AnyDevice.solve_exists {lib : NumLib} {order : List String} {c : Crystal N}
    {stack : List String} {mask : List Bool} {lr lt : Layer N} {As As' : List (AnyLayer N)} {er et : ℂ}
    (hd : AnyDevice c stack mask lr As lt er et)
    (ho : SetOrder ("Sref" :: (stack ++ ["Strans"])) order) {src : Source} (hs : c.source = some src)
    {rr rt : Solved N} {Ss : List (SMat (Fin N ⊕ Fin N))} {st : Stacked (Fin N ⊕ Fin N)}
    (hr : (Form.halfInc er).solve lib c.expansion lr.depth src.kp src.wavelength = .ok rr)
    (hl : List.Forall₂ (fun a a' => a.solve lib src.kp src.wavelength = .ok a') As As')
    (hS : List.Forall₂ (fun (a' : AnyLayer N) S => a'.S = some S) As' Ss)
    (ht : (Form.halfTrn et).solve lib c.expansion lt.depth src.kp src.wavelength = .ok rt)
    (hst : stackLayers (rr.S :: (Ss ++ [rt.S])) (true :: (mask ++ [true])) = .ok st) :
    ∃ c', c.solve lib order = .ok c' ∧ c'.stacked = some st ∧
      c'.layers "Sref" = some (.plain (lr.store rr)) ∧
      c'.layers "Strans" = some (.plain (lt.store rt)) ∧
      c' = { c with layers := c'.layers, stackPositions := c'.stackPositions, stacked := some st } ∧
      List.Forall₂ (fun x a' => c'.layers x = some a') stack As' := by
  classical
  let lay : String → Option (AnyLayer N) := fun x =>
    if x ∈ order then (c.layers x).bind fun l => (l.solve lib src.kp src.wavelength).toOption else c.layers x
  have hany : ∀ x ∈ order, ∀ a a', c.layers x = some a → a.solve lib src.kp src.wavelength = .ok a' →
      lay x = some a' := by
    intro x hx a a' h1 h2
    simp [lay, hx, h1, h2, Except.toOption]
  have er1 := AnyLayer.solve_plain.2 ⟨rr, by rw [hd.ref_form, hd.ref_exp]; exact hr, rfl⟩
  have et1 := AnyLayer.solve_plain.2 ⟨rt, by rw [hd.trans_form, hd.trans_exp]; exact ht, rfl⟩
  have hlr := hany "Sref" ((ho.2 _).2 (by simp)) _ _ hd.ref er1
  have hlt := hany "Strans" ((ho.2 _).2 (by simp)) _ _ hd.trans et1
  have hlay : ∀ (stk : List String) (As As' : List (AnyLayer N)), (∀ x ∈ stk, x ∈ order) →
      List.Forall₂ (fun x a => c.layers x = some a) stk As →
      List.Forall₂ (fun a a' => AnyLayer.solve lib src.kp src.wavelength a = .ok a') As As' →
      (∀ x ∈ stk, ∃ l l', c.layers x = some l ∧ l.solve lib src.kp src.wavelength = .ok l' ∧
        lay x = some l') ∧
      List.Forall₂ (fun x a' => lay x = some a') stk As' := by
    intro stk
    induction stk with
    | nil => intro As As' _ h h'; cases h; cases h'; exact ⟨by simp, .nil⟩
    | cons x stk ih =>
      intro As As' hm h h'
      cases h with
      | cons hx hT =>
        cases h' with
        | cons hx' hT' =>
          obtain ⟨i1, i2⟩ := ih _ _ (fun y hy => hm y (by simp [hy])) hT hT'
          have := hany x (hm x (by simp)) _ _ hx hx'
          refine ⟨?_, .cons this i2⟩
          intro y hy
          rcases List.mem_cons.1 hy with rfl | hy
          · exact ⟨_, _, hx, hx', this⟩
          · exact i1 y hy
  obtain ⟨hA, hB⟩ := hlay stack As As' (fun x hx => (ho.2 x).2 (by simp [hx])) hd.layers hl
  let ls : List (AnyLayer N) := .plain (lr.store rr) :: (As' ++ [.plain (lt.store rt)])
  obtain ⟨pos, hpos⟩ : ∃ pos, Crystal.positions false (ls.map AnyLayer.depth) = .ok pos := by
    simp only [Crystal.positions, bind_eq_ok]
    exact ⟨_, (), pyCheck_ok (by simp [ls, Crystal.cumsum]), rfl⟩
  refine ⟨{ c with layers := lay, stackPositions := pos, stacked := some st }, ?_, rfl, hlr, hlt, rfl, hB⟩
  refine (Crystal.solve_eq_ok ho.1).2 ⟨src, _, ls, pos, rr.S :: (Ss ++ [rt.S]), st, hs,
    hd.stacking, ?_, ?_, ?_, ?_, ?_, ?_, rfl⟩
  · intro x hx
    have := (ho.2 x).1 hx
    simp only [List.mem_cons, List.mem_append, List.not_mem_nil, or_false] at this
    rcases this with rfl | h | rfl
    · exact ⟨_, _, hd.ref, er1, hlr⟩
    · exact hA x h
    · exact ⟨_, _, hd.trans, et1, hlt⟩
  · intro x hx
    simp [lay, hx]
  · exact .cons hlr (List.rel_append hB (.cons hlt .nil))
  · rw [hd.void]; exact hpos
  · exact .cons rfl (List.rel_append hS (.cons rfl .nil))
  · rw [hd.retain]; exact hst

/-- The fluxes of a device in vacuum at normal incidence. -/
theorem vacuum_fluxes {c3 : Crystal N} {st : Stacked (Fin N ⊕ Fin N)} {lr lt : Layer N} {rr rt : Solved N} {wl : ℝ}
    (hN : 0 < N) (hwl : 0 < wl) (hst : c3.stacked = some st)
    (hs : c3.source = some ⟨1, 0, 0, 0, wl, (0, 0), star (csqrt (((2 * Real.pi / wl : ℝ) : ℂ) ^ 2 * 1 - 0 ^ 2 - 0 ^ 2))⟩)
    (hg : ∀ i, 1 - orderKx c3.expansion (0, 0) wl i ^ 2 - orderKy c3.expansion (0, 0) wl i ^ 2 ≠ 0)
    (hi : c3.epsi = 1) (hie : c3.epse = 1)
    (e2 : c3.layers "Sref" = some (.plain (lr.store rr))) (fr : lr.fields = true) (wr : rr.W = 1)
    (e4 : c3.layers "Strans" = some (.plain (lt.store rt))) (ft : lt.fields = true) (wt : rt.W = 1) :
    ∃ f, c3.poyntingFluxEnd = .ok f := by
  have hinc : ∃ inc : Vec2 N, incident N 1 0 ⟨0, 0, star (csqrt (((2 * Real.pi / wl : ℝ) : ℂ) ^ 2 * 1 - 0 ^ 2 - 0 ^ 2))⟩
      = .ok inc :=
    ⟨_, incident_eq_ok.2 ⟨hN, by simp [polNorm], _, _, polarisations_small (by simp), rfl⟩⟩
  obtain ⟨inc, hinc⟩ := hinc
  obtain ⟨T, hT⟩ := flux_exists c3.expansion hwl (0, 0) hg (by simp) ((1 * st.Stot.s21) *ᵥ ((1 : Mat2 N)⁻¹ *ᵥ inc))
  obtain ⟨R, hR⟩ := flux_exists c3.expansion hwl (0, 0) hg (by simp) ((1 * st.Stot.s11) *ᵥ ((1 : Mat2 N)⁻¹ *ᵥ inc))
  refine ⟨_, Crystal.poyntingFluxEnd_eq_ok.2
    ⟨st, _, inc, _, _, 1, 1, T, R, hst, hs, hinc, e2, ?_, by simp, e4, ?_, ?_, ?_, rfl⟩⟩
  · simp [AnyLayer.W, Layer.store, wr, fr]
  · simp [AnyLayer.W, Layer.store, wt, ft]
  · rw [hi, hie]; simpa using hT
  · rw [hi]; simpa using hR

/-- A crystal of the two lattices with a vacuum layer of each. -/
theorem twisted_run (lib : NumLib) : ∃ (lhs rhs : Expansion 9) (se : SumExpansion 9) (a b c c1 c2 c3 : Crystal (9 * 9))
    (f : Crystal.Fluxes (9 * 9)),
    Built lhs ∧ Built rhs ∧ lhs.add 2 rhs = .ok se ∧
    a = { expansion := se.exp, layers := fun _ => none } ∧
    a.addExtended se "a" (Layer.uniform lhs 1 1) = .ok b ∧ b.addExtended se "b" (Layer.uniform rhs 1 2) = .ok c ∧
    TwistedDevice se c ["a", "b"] (.inl true) [.first (Layer.uniform lhs 1 1), .second (Layer.uniform rhs 1 2)]
      ((1 : ℝ) : ℂ) ((1 : ℝ) : ℂ) ∧
    c.setDevice ["a", "b"] (.inl true) = .ok c1 ∧ c1.setSource 4 1 0 0 0 none = .ok c2 ∧
    (∃ src, c2.source = some src ∧ src.kp = (((0 : ℝ) : ℂ), ((0 : ℝ) : ℂ))) ∧
    SetOrder ("Sref" :: (["a", "b"] ++ ["Strans"])) ["Sref", "a", "b", "Strans"] ∧
    c2.solve lib ["Sref", "a", "b", "Strans"] = .ok c3 ∧ c3.poyntingFluxEnd = .ok f ∧
    ∀ i, 1 - orderKx se.exp (0, 0) 4 i ^ 2 - orderKy se.exp (0, 0) 4 i ^ 2 ≠ 0 := by
  obtain ⟨lhs, rhs, se, hbl, hbr, hne, hse, hg⟩ := two_lattices
  obtain ⟨-, -, hl, hr, -⟩ := add_eq_ok hse
  let X (e : Expansion 9) (d : ℝ) (kind : ℕ) (gs : Fin 9 → R2) (f : Bool) : ExtLayer (9 * 9) :=
    { M := 9, hM := rfl, expansion := se.exp, base := { Layer.uniform e 1 d with fields := f }, mode := kind,
      gs := List.ofFn gs, depth := d, fields := f }
  have hA : ∀ f, ExtLayer.make se { Layer.uniform lhs 1 1 with fields := f } = .ok (X lhs 1 1 se.rhs.g f) := by
    intro f
    rw [ExtLayer.make, if_pos (by rw [hl]; rfl)]
    rfl
  have hB : ∀ f, ExtLayer.make se { Layer.uniform rhs 1 2 with fields := f } = .ok (X rhs 2 0 se.lhs.g f) := by
    intro f
    rw [ExtLayer.make, if_neg (by rw [hl]; exact hne), if_pos (by rw [hr]; rfl)]
    rfl
  let a : Crystal (9 * 9) := { expansion := se.exp, layers := fun _ => none }
  let b : Crystal (9 * 9) := a.setLayer "a" (.ext (X lhs 1 1 se.rhs.g false))
  let c : Crystal (9 * 9) := b.setLayer "b" (.ext (X rhs 2 0 se.lhs.g false))
  have hb : a.addExtended se "a" (Layer.uniform lhs 1 1) = .ok b := by
    have := hA false
    rw [Crystal.addExtended, show Layer.uniform lhs 1 1 = { Layer.uniform lhs 1 1 with fields := false } from rfl, this]
    rfl
  have hcc : b.addExtended se "b" (Layer.uniform rhs 1 2) = .ok c := by
    have := hB false
    rw [Crystal.addExtended, show Layer.uniform rhs 1 2 = { Layer.uniform rhs 1 2 with fields := false } from rfl, this]
    rfl
  have hla : c.layers "a" = some (.ext (X lhs 1 1 se.rhs.g false)) := by simp [c, b, Crystal.setLayer]
  have hlb : c.layers "b" = some (.ext (X rhs 2 0 se.lhs.g false)) := by simp [c, Crystal.setLayer]
  have hc : TwistedDevice se c ["a", "b"] (.inl true)
      [.first (Layer.uniform lhs 1 1), .second (Layer.uniform rhs 1 2)] ((1 : ℝ) : ℂ) ((1 : ℝ) : ℂ) :=
    { space := rfl
      two := by rw [hl, hr]; exact hne
      void := rfl
      epsi := by simp [c, b, a, Crystal.setLayer]
      epse := by simp [c, b, a, Crystal.setLayer]
      noRef := by simp [c, b, a, Crystal.setLayer]
      noTrans := by simp [c, b, a, Crystal.setLayer]
      layers := .cons ⟨hl.symm, by simp [Layer.uniform, Form.isLayer], _, hA false, hla⟩
        (.cons ⟨hr.symm, by simp [Layer.uniform, Form.isLayer], _, hB false, hlb⟩ .nil)
      mask := by simp }
  obtain ⟨c1, h1, hd, hexp, -, hi, hie⟩ := Crystal.setDevice_any (m := .inl true) hc.void hc.noRef hc.noTrans
    (As := [.ext (X lhs 1 1 se.rhs.g false), .ext (X rhs 2 0 se.lhs.g false)]) (.cons hla (.cons hlb .nil))
    (by simp [Crystal.maskList])
  have hi1 : c1.epsi = 1 := by rw [hi]; simpa using hc.epsi
  have hie1 : c1.epse = 1 := by rw [hie]; simpa using hc.epse
  have hexp1 : c1.expansion = se.exp := hexp
  let src : Source := ⟨1, 0, 0, 0, 4, (0, 0), star (csqrt (((2 * Real.pi / 4 : ℝ) : ℂ) ^ 2 * 1 - 0 ^ 2 - 0 ^ 2))⟩
  have h2 : c1.setSource 4 1 0 0 0 none = .ok { c1 with source := some src } := by
    refine Crystal.setSource_eq_ok.2 ⟨four_ne_zero, (0, 0), ?_, ?_⟩
    · simp [Crystal.orDefault, computeKplanar, pure, Except.pure]
    · simp only [hi1, src]
  have hen : List.zipWith (fun x (a : AnyLayer (9 * 9)) => a.enable (Crystal.requested x (["a", "b"].zip
      (Crystal.maskList ["a", "b"] (.inl true))))) ["a", "b"]
      [.ext (X lhs 1 1 se.rhs.g false), .ext (X rhs 2 0 se.lhs.g false)] =
      [.ext (X lhs 1 1 se.rhs.g true), .ext (X rhs 2 0 se.lhs.g true)] := by
    simp [Crystal.maskList, Crystal.requested, AnyLayer.enable, X, Layer.uniform]
  rw [hen] at hd
  have hd2 : AnyDevice { c1 with source := some src } ["a", "b"] _ _ _ _ _ _ :=
    ⟨hd.void, hd.stacking, hd.retain, hd.mask_len, hd.ref, hd.ref_form, hd.ref_exp, hd.ref_fields, hd.trans,
      hd.trans_form, hd.trans_exp, hd.trans_fields, hd.layers, hd.ref_depth, hd.trans_depth⟩
  have ho : SetOrder ("Sref" :: (["a", "b"] ++ ["Strans"])) ["Sref", "a", "b", "Strans"] :=
    ⟨by decide, fun x => by simp⟩
  have hg' : ∀ i, 1 - orderKx se.exp (0, 0) 4 i ^ 2 - orderKy se.exp (0, 0) 4 i ^ 2 ≠ 0 := by
    intro i h
    refine two_lattices_not_grazing (hg i) ?_
    have : ((1 - orderKx se.exp (0, 0) 4 i ^ 2 - orderKy se.exp (0, 0) 4 i ^ 2 : ℝ) : ℂ) = 0 := by rw [h]; simp
    refine Eq.trans ?_ this
    simp [orderKx, orderKy]
  obtain ⟨rv, hv1, hv2, hvS, hvW, -⟩ := vacuum_halves lib se.exp (wl := 4) four_ne_zero (0, 0) hg'
  -- the two layers
  have hlay : ∀ (e : Expansion 9) (d : ℝ) (x : ExtLayer (9 * 9)), (e = lhs ∨ e = rhs) →
      ExtLayer.make se { Layer.uniform e 1 d with fields := true } = .ok x →
      ∃ x' S, AnyLayer.solve lib (0, 0) 4 (.ext x) = .ok (.ext x') ∧ x'.S = some S ∧ S.s11 = 0 := by
    intro e d x he hx
    obtain ⟨R, hR⟩ := vacuum_solve lib se.exp d (0, 0) (wl := 4) four_ne_zero
      fun p => two_lattices_not_grazing (hg p)
    obtain ⟨x', hx', hS, -⟩ := (C28_uniform hse hne lib (0, 0) 4 1 d true R.S _ _ _ he hx).2
      ⟨_, Layer.solve_eq_ok.2 ⟨R, hR, rfl⟩, rfl, rfl, rfl, rfl⟩
    refine ⟨x', R.S, ?_, hS, vacuum_s11 hR⟩
    simp [AnyLayer.solve, hx', ok_bind, pure, Except.pure]
  obtain ⟨xa, Sa, a1, a2, -⟩ := hlay lhs 1 _ (Or.inl rfl) (hA true)
  obtain ⟨xb, Sb, b1, b2, b3⟩ := hlay rhs 2 _ (Or.inr rfl) (hB true)
  have hred : redheffer Sa Sb = .ok (redhefferVal Sa Sb) := redheffer_eq_ok.2 ⟨by rw [b3]; simp, rfl⟩
  obtain ⟨st, hst, -⟩ := (stackLayers_exists (layers := rv.S :: ([Sa, Sb] ++ [rv.S]))
    (mask := true :: (Crystal.maskList ["a", "b"] (.inl true) ++ [true])) (by simp [Crystal.maskList])
    (redhefferVal Sa Sb)).2 (by
      rw [hvS]
      constructor
      · simp only [List.cons_append, List.nil_append, leftFold, redheffer_id_left, redheffer_id_right, ok_bind, hred]
      · simp only [List.reverse_cons, List.reverse_nil, List.nil_append, List.cons_append, revFold,
          redheffer_id_left, redheffer_id_right, ok_bind, hred])
  have hepi : c.epsi = 1 := by simpa using hc.epsi
  have hepe : c.epse = 1 := by simpa using hc.epse
  obtain ⟨c3, h3, e1, e2, e3, e4, -⟩ := hd2.solve_exists (lib := lib) ho (src := src) rfl (rr := rv) (rt := rv)
    (As' := [.ext xa, .ext xb]) (Ss := [Sa, Sb]) (st := st)
    (by rw [hepi]; show Form.solve lib c1.expansion _ _ _ _ = _; rw [hexp1]; simpa [src, Layer.halfInfinite] using hv1)
    (.cons a1 (.cons b1 .nil)) (.cons a2 (.cons b2 .nil))
    (by rw [hepe]; show Form.solve lib c1.expansion _ _ _ _ = _; rw [hexp1]; simpa [src, Layer.halfInfinite] using hv2)
    hst
  have hce : c3.expansion = se.exp := by rw [e4]; exact hexp1
  obtain ⟨f, hf⟩ := vacuum_fluxes (wl := 4) (by norm_num) four_pos e1 (by rw [e4]) (by rw [hce]; exact hg')
    (by rw [e4]; exact hi1) (by rw [e4]; exact hie1) e2 rfl hvW e3 rfl hvW
  exact ⟨lhs, rhs, se, a, b, c, c1, _, c3, f, hbl, hbr, hse, rfl, hb, hcc, hc, h1, h2, ⟨src, rfl, by simp [src]⟩, ho, h3, hf, hg'⟩

end Khepri
