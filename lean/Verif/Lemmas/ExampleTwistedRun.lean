import Verif.Lemmas.ExampleTwistedDevice
import Verif.Lemmas.ExamplePlate
import Verif.Lemmas.EmbedTwisted
import Verif.Lemmas.TwistedSymmetry
import Verif.Props.Islands

set_option linter.unusedSectionVars false

/-!
# Examples: stacks of a layer of each of two lattices
-/

namespace Khepri

open Matrix

variable {M : ℕ}

/-- A layer of given pattern. -/
def formLayer (e : Expansion M) (f : Form) (d : ℝ) : Layer M := { expansion := e, form := f, depth := d }

/-- Its extension to the joint space. -/
def extOf (x : Expansion (M * M)) (e : Expansion M) (f : Form) (d : ℝ) (kind : ℕ) (gs : Fin M → R2) (b : Bool) :
    ExtLayer (M * M) :=
  { M := M, hM := rfl, expansion := x, base := { formLayer e f d with fields := b }, mode := kind,
    gs := List.ofFn gs, depth := d, fields := b }

theorem any_ext {K : ℕ} {lib : NumLib} {kp : ℂ × ℂ} {wl : ℝ} {l l' : ExtLayer K} (h : l.solve lib kp wl = .ok l') :
    AnyLayer.solve lib kp wl (.ext l) = .ok (.ext l') := by
  simp [AnyLayer.solve, h, ok_bind, pure, Except.pure]

theorem ext_solve_clear {lib : NumLib} {x : Expansion (M * M)} {e : Expansion M} {form : Form} {d : ℝ} {kind : ℕ}
    (hkind : kind < 2) (hM : 0 < M) {gs : Fin M → R2} {wl : ℝ}
    (h : ∀ i, ∃ r : Solved M, form.solve lib e d (shiftKp (gs i) (0, 0)) wl = .ok r ∧ r.S.s11 = 0) :
    ∃ (x' : ExtLayer (M * M)) (S : SMat (Fin (M * M) ⊕ Fin (M * M))),
      AnyLayer.solve lib (0, 0) wl (.ext (extOf x e form d kind gs true)) = .ok (.ext x') ∧ x'.S = some S ∧ S.s11 = 0 := by
  choose r hr h11 using h
  have hrs : List.Forall₂ (fun g r => form.solve lib e d (shiftKp g (0, 0)) wl = .ok r) (List.ofFn gs) (List.ofFn r) := by
    rw [List.forall₂_iff_get]
    refine ⟨by simp, fun i h1 h2 => ?_⟩
    simp only [List.get_eq_getElem, List.getElem_ofFn]
    exact hr _
  have hgap : ∃ w : Fin M → Mat2 M × Mat2 M, ∀ i, gapAt e (0, 0) wl (gs i) = .ok (w i) := by
    choose w hw using fun i => Form.solve_gap (hr i)
    exact ⟨w, hw⟩
  obtain ⟨w, hw⟩ := hgap
  have hws : List.Forall₂ (fun g w => gapAt e (0, 0) wl g = .ok w) (List.ofFn gs) (List.ofFn w) := by
    rw [List.forall₂_iff_get]
    refine ⟨by simp, fun i h1 h2 => ?_⟩
    simp only [List.get_eq_getElem, List.getElem_ofFn]
    exact hw _
  have hs := (ExtLayer.solve_eq_ok (lib := lib) (x := x) (base := { formLayer e form d with fields := true }) (mode := kind)
    (gs := List.ofFn gs) (depth := d) (f := true) (S := none) (W := none) (V := none) (W0 := none) (V0 := none) (L := none)
    (IC := none) (kp := (0, 0)) (wl := wl)).2
    ⟨List.ofFn r, List.ofFn w, hrs, hws, by simp [hM.ne'], hkind, by simp, rfl⟩
  have hs' := any_ext hs
  refine ⟨_, _, hs', rfl, ?_⟩
  · have : (fun i : Fin M => ((List.map Solved.S (List.ofFn r)).getD i ⟨0, 0, 0, 0⟩).s11) = fun _ => 0 := by
      funext i
      simp [List.getD, h11]
    rw [bdS]
    simp only [this]
    exact bd_zero _

/-- A stack of two extended layers in vacuum at normal incidence, none of which reflects. -/
theorem twisted_run_core {lib : NumLib} {tag : ℕ} {lhs rhs : Expansion M} {se : SumExpansion M} (hne : lhs.tag ≠ rhs.tag)
    (hse : lhs.add tag rhs = .ok se) {e1 e2 : Expansion M} {fa fb : Form} {da db wl : ℝ} (hwl : 0 < wl) {k1 k2 : ℕ}
    (hk1 : k1 < 2) (hk2 : k2 < 2) {g1 g2 : Fin M → R2} {A B : TwistedLayer M}
    (hA : ∀ (c : Crystal (M * M)) x, c.layers x = some (.ext (extOf se.exp e1 fa da k1 g1 false)) →
      TwistedLayer.Registered se c x A)
    (hB : ∀ (c : Crystal (M * M)) x, c.layers x = some (.ext (extOf se.exp e2 fb db k2 g2 false)) →
      TwistedLayer.Registered se c x B)
    (hg : ∀ i, 1 - orderKx se.exp (0, 0) wl i ^ 2 - orderKy se.exp (0, 0) wl i ^ 2 ≠ 0)
    (ha : ∀ i, ∃ r : Solved M, fa.solve lib e1 da (shiftKp (g1 i) (0, 0)) wl = .ok r ∧ r.S.s11 = 0)
    (hb : ∀ i, ∃ r : Solved M, fb.solve lib e2 db (shiftKp (g2 i) (0, 0)) wl = .ok r ∧ r.S.s11 = 0) :
    ∃ (c c3 : Crystal (M * M)) (f : Crystal.Fluxes (M * M)),
      TwistedRun lib se c ["a", "b"] (.inl true) [A, B] 1 1 wl 1 0 0 0 none (0, 0) c3 ∧ c3.poyntingFluxEnd = .ok f := by
  have hM := add_pos hse
  have hMM : 0 < M * M := Nat.mul_pos hM hM
  obtain ⟨-, -, hl, hr, -⟩ := add_eq_ok hse
  let c : Crystal (M * M) := {
    expansion := se.exp
    layers := fun x =>
      if x = "a" then some (.ext (extOf se.exp e1 fa da k1 g1 false)) else
      if x = "b" then some (.ext (extOf se.exp e2 fb db k2 g2 false)) else none }
  have hla : c.layers "a" = some (.ext (extOf se.exp e1 fa da k1 g1 false)) := by simp [c]
  have hlb : c.layers "b" = some (.ext (extOf se.exp e2 fb db k2 g2 false)) := by simp [c]
  have hc : TwistedDevice se c ["a", "b"] (.inl true)
      [A, B] ((1 : ℝ) : ℂ) ((1 : ℝ) : ℂ) :=
    { space := rfl
      two := by rw [hl, hr]; exact hne
      void := rfl
      epsi := by simp [c]
      epse := by simp [c]
      noRef := by simp [c]
      noTrans := by simp [c]
      layers := .cons (hA _ _ hla) (.cons (hB _ _ hlb) .nil)
      mask := by simp }
  obtain ⟨c1, h1, hd, hexp, -, hi, hie⟩ := Crystal.setDevice_any (m := .inl true) hc.void hc.noRef hc.noTrans
    (As := [.ext (extOf se.exp e1 fa da k1 g1 false), .ext (extOf se.exp e2 fb db k2 g2 false)]) (.cons hla (.cons hlb .nil))
    (by simp [Crystal.maskList])
  have hi1 : c1.epsi = 1 := by rw [hi]
  have hie1 : c1.epse = 1 := by rw [hie]
  have hexp1 : c1.expansion = se.exp := hexp
  let src : Source := ⟨1, 0, 0, 0, wl, (0, 0), star (csqrt (((2 * Real.pi / wl : ℝ) : ℂ) ^ 2 * 1 - 0 ^ 2 - 0 ^ 2))⟩
  have h2 : c1.setSource wl 1 0 0 0 none = .ok { c1 with source := some src } := by
    refine Crystal.setSource_eq_ok.2 ⟨hwl.ne', (0, 0), ?_, ?_⟩
    · simp [Crystal.orDefault, computeKplanar, pure, Except.pure, hwl.ne']
    · simp only [hi1, src]
  have hen : List.zipWith (fun x (a : AnyLayer (M * M)) => a.enable (Crystal.requested x (["a", "b"].zip
      (Crystal.maskList ["a", "b"] (.inl true))))) ["a", "b"]
      [.ext (extOf se.exp e1 fa da k1 g1 false), .ext (extOf se.exp e2 fb db k2 g2 false)] =
      [.ext (extOf se.exp e1 fa da k1 g1 true), .ext (extOf se.exp e2 fb db k2 g2 true)] := by
    simp [Crystal.maskList, Crystal.requested, AnyLayer.enable, extOf, formLayer]
  rw [hen] at hd
  have hd2 : AnyDevice { c1 with source := some src } ["a", "b"] _ _ _ _ _ _ :=
    ⟨hd.void, hd.stacking, hd.retain, hd.mask_len, hd.ref, hd.ref_form, hd.ref_exp, hd.ref_fields, hd.trans,
      hd.trans_form, hd.trans_exp, hd.trans_fields, hd.layers, hd.ref_depth, hd.trans_depth⟩
  have ho : SetOrder ("Sref" :: (["a", "b"] ++ ["Strans"])) ["Sref", "a", "b", "Strans"] :=
    ⟨by decide, fun x => by simp⟩
  obtain ⟨rv, hv1, hv2, hvS, hvW, -⟩ := vacuum_halves lib se.exp hwl.ne' (0, 0) hg
  obtain ⟨xa, Sa, a1, a2, -⟩ := ext_solve_clear (x := se.exp) (kind := k1) hk1 hM ha
  obtain ⟨xb, Sb, b1, b2, b3⟩ := ext_solve_clear (x := se.exp) (kind := k2) hk2 hM hb
  have hred : redheffer Sa Sb = .ok (redhefferVal Sa Sb) := redheffer_eq_ok.2 ⟨by rw [b3]; simp, rfl⟩
  obtain ⟨st, hst, -⟩ := (stackLayers_exists (layers := rv.S :: ([Sa, Sb] ++ [rv.S]))
    (mask := true :: (Crystal.maskList ["a", "b"] (.inl true) ++ [true])) (by simp [Crystal.maskList])
    (redhefferVal Sa Sb)).2 (by
      rw [hvS]
      constructor
      · simp only [List.cons_append, List.nil_append, leftFold, redheffer_id_left, redheffer_id_right, ok_bind, hred]
      · simp only [List.reverse_cons, List.reverse_nil, List.nil_append, List.cons_append, revFold,
          redheffer_id_left, redheffer_id_right, ok_bind, hred])
  have hepi : c.epsi = 1 := by simpa using hc.epsi
  have hepe : c.epse = 1 := by simpa using hc.epse
  obtain ⟨c3, h3, e1, e2, e3, e4, -⟩ := hd2.solve_exists (lib := lib) ho (src := src) rfl (rr := rv) (rt := rv)
    (As' := [.ext xa, .ext xb]) (Ss := [Sa, Sb]) (st := st)
    (by rw [hepi]; show Form.solve lib c1.expansion _ _ _ _ = _; rw [hexp1]; simpa [src, Layer.halfInfinite] using hv1)
    (.cons a1 (.cons b1 .nil)) (.cons a2 (.cons b2 .nil))
    (by rw [hepe]; show Form.solve lib c1.expansion _ _ _ _ = _; rw [hexp1]; simpa [src, Layer.halfInfinite] using hv2)
    hst
  have hce : c3.expansion = se.exp := by rw [e4]; exact hexp1
  obtain ⟨f, hf⟩ := vacuum_fluxes (wl := wl) hMM hwl e1 (by rw [e4]) (by rw [hce]; exact hg)
    (by rw [e4]; exact hi1) (by rw [e4]; exact hie1) e2 rfl hvW e3 rfl hvW
  exact ⟨c, c3, f, ⟨hc, c1, _, _, src, h1, h2, ho, h3, rfl, by simp [src]⟩, hf⟩

/-- A stack of a layer of each of two lattices, in vacuum at normal incidence, none of which reflects. -/
theorem twisted_run_of {lib : NumLib} {tag : ℕ} {lhs rhs : Expansion M} {se : SumExpansion M} (hne : lhs.tag ≠ rhs.tag)
    (hse : lhs.add tag rhs = .ok se) {fa fb : Form} (hfa : fa.isLayer) (hfb : fb.isLayer) {da db wl : ℝ} (hwl : 0 < wl)
    (hg : ∀ i, 1 - orderKx se.exp (0, 0) wl i ^ 2 - orderKy se.exp (0, 0) wl i ^ 2 ≠ 0)
    (ha : ∀ i, ∃ r : Solved M, fa.solve lib lhs da (shiftKp (rhs.g i) (0, 0)) wl = .ok r ∧ r.S.s11 = 0)
    (hb : ∀ i, ∃ r : Solved M, fb.solve lib rhs db (shiftKp (lhs.g i) (0, 0)) wl = .ok r ∧ r.S.s11 = 0) :
    ∃ (c c3 : Crystal (M * M)) (f : Crystal.Fluxes (M * M)),
      TwistedRun lib se c ["a", "b"] (.inl true) [.first (formLayer lhs fa da), .second (formLayer rhs fb db)]
        1 1 wl 1 0 0 0 none (0, 0) c3 ∧ c3.poyntingFluxEnd = .ok f := by
  obtain ⟨-, -, hl, hr, -⟩ := add_eq_ok hse
  have hA : ExtLayer.make se (formLayer lhs fa da) = .ok (extOf se.exp lhs fa da 1 rhs.g false) := by
    rw [ExtLayer.make, if_pos (by rw [hl]; rfl), ← hr]
    rfl
  have hB : ExtLayer.make se (formLayer rhs fb db) = .ok (extOf se.exp rhs fb db 0 lhs.g false) := by
    rw [ExtLayer.make, if_neg (by rw [hl]; exact hne), if_pos (by rw [hr]; rfl), ← hl]
    rfl
  exact twisted_run_core hne hse hwl (k1 := 1) (k2 := 0) (by norm_num) (by norm_num)
    (fun c x hx => ⟨hl.symm, hfa, _, hA, hx⟩) (fun c x hx => ⟨hr.symm, hfb, _, hB, hx⟩) hg ha hb

/-- A stack of a layer of each of two lattices, in vacuum at normal incidence, none of which reflects; the
layer of the second lattice first. -/
theorem twisted_run_rev {lib : NumLib} {tag : ℕ} {lhs rhs : Expansion M} {se : SumExpansion M} (hne : lhs.tag ≠ rhs.tag)
    (hse : lhs.add tag rhs = .ok se) {fa fb : Form} (hfa : fa.isLayer) (hfb : fb.isLayer) {da db wl : ℝ} (hwl : 0 < wl)
    (hg : ∀ i, 1 - orderKx se.exp (0, 0) wl i ^ 2 - orderKy se.exp (0, 0) wl i ^ 2 ≠ 0)
    (ha : ∀ i, ∃ r : Solved M, fa.solve lib lhs da (shiftKp (rhs.g i) (0, 0)) wl = .ok r ∧ r.S.s11 = 0)
    (hb : ∀ i, ∃ r : Solved M, fb.solve lib rhs db (shiftKp (lhs.g i) (0, 0)) wl = .ok r ∧ r.S.s11 = 0) :
    ∃ (c c3 : Crystal (M * M)) (f : Crystal.Fluxes (M * M)),
      TwistedRun lib se c ["a", "b"] (.inl true) [.second (formLayer rhs fb db), .first (formLayer lhs fa da)]
        1 1 wl 1 0 0 0 none (0, 0) c3 ∧ c3.poyntingFluxEnd = .ok f := by
  obtain ⟨-, -, hl, hr, -⟩ := add_eq_ok hse
  have hA : ExtLayer.make se (formLayer lhs fa da) = .ok (extOf se.exp lhs fa da 1 rhs.g false) := by
    rw [ExtLayer.make, if_pos (by rw [hl]; rfl), ← hr]
    rfl
  have hB : ExtLayer.make se (formLayer rhs fb db) = .ok (extOf se.exp rhs fb db 0 lhs.g false) := by
    rw [ExtLayer.make, if_neg (by rw [hl]; exact hne), if_pos (by rw [hr]; rfl), ← hl]
    rfl
  exact twisted_run_core hne hse hwl (k1 := 0) (k2 := 1) (by norm_num) (by norm_num)
    (fun c x hx => ⟨hr.symm, hfb, _, hB, hx⟩) (fun c x hx => ⟨hl.symm, hfa, _, hA, hx⟩) hg hb ha

/-- A lattice with one order only. -/
noncomputable def dotExpansion (tag : ℕ) : Expansion 1 := { exampleExpansion with tag := tag }

theorem dotExpansion_make (tag : ℕ) : Expansion.make tag (1, 1) ((1, 0), (0, 1)) = .ok (dotExpansion tag) := by
  have := make_eq_ok.1 exampleExpansion_make
  obtain ⟨h1, h2, b, hb, h3⟩ := this
  refine make_eq_ok.2 ⟨h1, h2, b, hb, ?_⟩
  exact congrArg (fun e : Expansion 1 => ({ e with tag := tag } : Expansion 1)) h3

theorem dotExpansion_solve (lib : NumLib) (tag : ℕ) (f : Form) (d : ℝ) (kp : ℂ × ℂ) (wl : ℝ) :
    f.solve lib (dotExpansion tag) d kp wl = f.solve lib exampleExpansion d kp wl := by
  cases f <;> rfl

theorem dotExpansion_periods (tag : ℕ) : Periods (dotExpansion tag).reciprocal := by
  have : (dotExpansion tag).reciprocal = ((2 * Real.pi, 0), (0, 2 * Real.pi)) := by
    simp only [dotExpansion, exampleExpansion]; norm_num
  rw [this]; exact unit_periods

/-- A pixmap of two halves of mean permittivity 4. -/
theorem halves_solve {val : Fin 2 → Fin 1 → ℂ} (hval : val 0 0 + val 1 0 = 8) :
    ∃ r : Solved 1, r.S = (⟨0, -1, -1, 0⟩ : SMat (Fin 1 ⊕ Fin 1)) ∧
    (Form.fft ⟨2, 1, val⟩).solve plateLib exampleExpansion (1 / 4) (0, 0) 1 = .ok r := by
  refine meanFour_solve ?_
  have h := convolutionMatrix_ok (a := ⟨2, 1, val⟩) (pw := (1, 1)) (by simp) (by simp) (by simp) (by simp)
  refine h.trans (congrArg Except.ok ?_)
  ext i j
  have hi : i = (0 : Fin 1) := Subsingleton.elim (α := Fin 1) _ _
  have hj : j = (0 : Fin 1) := Subsingleton.elim (α := Fin 1) _ _
  subst hi hj
  have hs : (∑ x : Fin 2, val x 0) = 8 := by rw [Fin.sum_univ_two, hval]
  norm_num [diffAt, fourierCoef]
  refine (congrArg (· / (2 : ℂ)) hs).trans ?_
  norm_num

/-- Half a unit cell of permittivity 7 in a host of permittivity 1. -/
noncomputable def halfBar (x y : ℝ) : Form := .analytical [⟨.rectangle x y (x + 1 / 2) (y + 1), 7⟩] 1

theorem halfBar_solve (x y : ℝ) : ∃ r : Solved 1, r.S = (⟨0, -1, -1, 0⟩ : SMat (Fin 1 ⊕ Fin 1)) ∧
    (halfBar x y).solve plateLib exampleExpansion (1 / 4) (0, 0) 1 = .ok r := by
  obtain ⟨r, h1, h2⟩ := plate_solveWithC
  refine ⟨r, h1, ?_⟩
  have hC := analyticalC_ok (jv1 := plateLib.jv1) (e := exampleExpansion) (host := 1)
    (islands := [⟨.rectangle x y (x + 1 / 2) (y + 1), 7⟩]) rfl rfl (by simp) (by
      intro s hs k _
      simp only [List.mem_singleton] at hs
      subst hs
      exact ⟨_, rfl⟩)
  have hval : (Matrix.of fun r c : Fin 1 => islandCoef plateLib.jv1 exampleExpansion.reciprocal exampleExpansion.sigma
      [⟨.rectangle x y (x + 1 / 2) (y + 1), 7⟩] 1 (orderAt (triple exampleExpansion.pw.1, triple exampleExpansion.pw.2)
        (tablePos exampleExpansion.pw r c))) = (4 : ℂ) • 1 := by
    ext i j
    have hi : i = (0 : Fin 1) := Subsingleton.elim (α := Fin 1) _ _
    have hj : j = (0 : Fin 1) := Subsingleton.elim (α := Fin 1) _ _
    subst hi hj
    norm_num [exampleExpansion, tablePos, triple, diffAt, orderAt, islandCoef, shapeValue, transformShape,
      transformRectangle, latticeVec, fexpz]
  rw [hval] at hC
  simp only [halfBar, Form.solve, example_kVectors, ok_bind, normal_freeSpace]
  rw [hC]
  exact h2

/-- A stack of a plate of each of two lattices with one order each. -/
theorem dots_run {fa fb : Form} (hfa : fa.isLayer) (hfb : fb.isLayer)
    (ha : ∃ r : Solved 1, r.S = (⟨0, -1, -1, 0⟩ : SMat (Fin 1 ⊕ Fin 1)) ∧
      fa.solve plateLib exampleExpansion (1 / 4) (0, 0) 1 = .ok r)
    (hb : ∃ r : Solved 1, r.S = (⟨0, -1, -1, 0⟩ : SMat (Fin 1 ⊕ Fin 1)) ∧
      fb.solve plateLib exampleExpansion (1 / 4) (0, 0) 1 = .ok r) {se : SumExpansion 1}
    (hse : (dotExpansion 0).add 2 (dotExpansion 1) = .ok se) :
    ∃ (c c3 : Crystal (1 * 1)) (f : Crystal.Fluxes (1 * 1)),
      TwistedRun plateLib se c ["a", "b"] (.inl true)
        [.first (formLayer (dotExpansion 0) fa (1 / 4)), .second (formLayer (dotExpansion 1) fb (1 / 4))]
        1 1 1 1 0 0 0 none (0, 0) c3 ∧ c3.poyntingFluxEnd = .ok f := by
  obtain ⟨ra, a1, a2⟩ := ha
  obtain ⟨rb, b1, b2⟩ := hb
  have h0 : shiftKp (0, 0) (0, 0) = (0, 0) := by simp [shiftKp]
  refine twisted_run_of (by simp [dotExpansion]) hse hfa hfb one_pos (fun b => ?_) (fun i => ⟨ra, ?_, by rw [a1]⟩)
    fun i => ⟨rb, ?_, by rw [b1]⟩
  · obtain ⟨r, i, rfl⟩ := exists_pairPos b
    simp [orderKx, orderKy, add_g hse, dotExpansion, exampleExpansion]
  · rw [dotExpansion_solve, ← a2]
    exact congrArg (fun k => fa.solve plateLib exampleExpansion (1 / 4) k 1) h0
  · rw [dotExpansion_solve, ← b2]
    exact congrArg (fun k => fb.solve plateLib exampleExpansion (1 / 4) k 1) h0

/-- A stack of an empty layer of each of two lattices. -/
theorem vacuum_twisted (lib : NumLib) {tag : ℕ} {lhs rhs : Expansion M} {se : SumExpansion M} (hne : lhs.tag ≠ rhs.tag)
    (hse : lhs.add tag rhs = .ok se) (da db : ℝ) {wl : ℝ} (hwl : 0 < wl)
    (hg : ∀ i r, 1 - (((lhs.g i).1 + (rhs.g r).1) / (2 * Real.pi / wl)) ^ 2 -
      (((lhs.g i).2 + (rhs.g r).2) / (2 * Real.pi / wl)) ^ 2 ≠ 0) :
    ∃ (c c3 : Crystal (M * M)) (f : Crystal.Fluxes (M * M)),
      TwistedRun lib se c ["a", "b"] (.inl true)
        [.first (formLayer lhs (.uniform 1) da), .second (formLayer rhs (.uniform 1) db)]
        1 1 wl 1 0 0 0 none (0, 0) c3 ∧ c3.poyntingFluxEnd = .ok f := by
  refine twisted_run_of hne hse (by simp [Form.isLayer]) (by simp [Form.isLayer]) hwl (fun b => ?_) (fun i => ?_) fun i => ?_
  · obtain ⟨r, i, rfl⟩ := exists_pairPos b
    have := hg r i
    simpa only [orderKx, orderKy, add_g hse, zero_add] using this
  · obtain ⟨r, hr⟩ := vacuum_solve lib lhs da (shiftKp (rhs.g i) (0, 0)) hwl.ne' (fun j => by
      have := hg j i
      simp only [shiftKp, add_zero]
      rw [add_comm (lhs.g j).1, add_comm (lhs.g j).2] at this
      exact_mod_cast this)
    exact ⟨r, hr, vacuum_s11 hr⟩
  · obtain ⟨r, hr⟩ := vacuum_solve lib rhs db (shiftKp (lhs.g i) (0, 0)) hwl.ne' (fun j => by
      have := hg i j
      simp only [shiftKp, add_zero]
      exact_mod_cast this)
    exact ⟨r, hr, vacuum_s11 hr⟩

/-- A stack of an empty layer of each of two lattices, that of the second one first. -/
theorem vacuum_twisted_rev (lib : NumLib) {tag : ℕ} {lhs rhs : Expansion M} {se : SumExpansion M} (hne : lhs.tag ≠ rhs.tag)
    (hse : lhs.add tag rhs = .ok se) (da db : ℝ) {wl : ℝ} (hwl : 0 < wl)
    (hg : ∀ i r, 1 - (((lhs.g i).1 + (rhs.g r).1) / (2 * Real.pi / wl)) ^ 2 -
      (((lhs.g i).2 + (rhs.g r).2) / (2 * Real.pi / wl)) ^ 2 ≠ 0) :
    ∃ (c c3 : Crystal (M * M)) (f : Crystal.Fluxes (M * M)),
      TwistedRun lib se c ["a", "b"] (.inl true)
        [.second (formLayer rhs (.uniform 1) db), .first (formLayer lhs (.uniform 1) da)]
        1 1 wl 1 0 0 0 none (0, 0) c3 ∧ c3.poyntingFluxEnd = .ok f := by
  refine twisted_run_rev hne hse (by simp [Form.isLayer]) (by simp [Form.isLayer]) hwl (fun b => ?_) (fun i => ?_) fun i => ?_
  · obtain ⟨r, i, rfl⟩ := exists_pairPos b
    have := hg r i
    simpa only [orderKx, orderKy, add_g hse, zero_add] using this
  · obtain ⟨r, hr⟩ := vacuum_solve lib lhs da (shiftKp (rhs.g i) (0, 0)) hwl.ne' (fun j => by
      have := hg j i
      simp only [shiftKp, add_zero]
      rw [add_comm (lhs.g j).1, add_comm (lhs.g j).2] at this
      exact_mod_cast this)
    exact ⟨r, hr, vacuum_s11 hr⟩
  · obtain ⟨r, hr⟩ := vacuum_solve lib rhs db (shiftKp (lhs.g i) (0, 0)) hwl.ne' (fun j => by
      have := hg i j
      simp only [shiftKp, add_zero]
      exact_mod_cast this)
    exact ⟨r, hr, vacuum_s11 hr⟩

end Khepri
