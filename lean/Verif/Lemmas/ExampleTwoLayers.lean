import Verif.Lemmas.ExampleRun
import Verif.Lemmas.ExampleTwistedDevice

/-!
A device of two vacuum layers.
-/

namespace Khepri

open Matrix

variable {N : ℕ}

/-- A crystal with the layers `"a"` and `"b"`. -/
noncomputable def twoLayers (e : Expansion N) (d d' : ℝ) : Crystal N :=
  { expansion := e,
    layers := fun x => if x = "a" then some (.plain (Layer.uniform e 1 d))
      else if x = "b" then some (.plain (Layer.uniform e 1 d')) else none }

theorem twoLayers_fresh (e : Expansion N) (d d' : ℝ) :
    FreshDevice (twoLayers e d d') ["a", "b"] (.inl true) [Layer.uniform e 1 d, Layer.uniform e 1 d']
      ((1 : ℝ) : ℂ) ((1 : ℝ) : ℂ) where
  void := rfl
  epsi := by simp [twoLayers]
  epse := by simp [twoLayers]
  noRef := by simp [twoLayers]
  noTrans := by simp [twoLayers]
  layers := .cons ⟨by simp [twoLayers], by simp [Layer.uniform, Form.isLayer], rfl⟩
    (.cons ⟨by simp [twoLayers], by simp [Layer.uniform, Form.isLayer], rfl⟩ .nil)
  mask := by simp

/-- Two vacuum layers at normal incidence, with a complete run. -/
theorem twoLayers_run (lib : NumLib) (e : Expansion N) (hN : 0 < N)
    (hg : ∀ i, 1 - orderKx e (0, 0) 4 i ^ 2 - orderKy e (0, 0) 4 i ^ 2 ≠ 0) (d d' : ℝ) : ∃ c3 f,
    DeviceRun lib (twoLayers e d d') ["a", "b"] (.inl true) [Layer.uniform e 1 d, Layer.uniform e 1 d']
      1 1 4 1 0 0 0 none (0, 0) c3 ∧ c3.poyntingFluxEnd = .ok f := by
  have hfr := twoLayers_fresh e d d'
  obtain ⟨c1, h1, hd, hexp, -, hi, hie⟩ := Crystal.setDevice_standard (m := .inl true) hfr.void hfr.noRef
    hfr.noTrans hfr.layers (by simp [Crystal.maskList])
  have hi1 : c1.epsi = 1 := by rw [hi]; rfl
  have hie1 : c1.epse = 1 := by rw [hie]; rfl
  let src : Source := ⟨1, 0, 0, 0, 4, (0, 0), star (csqrt (((2 * Real.pi / 4 : ℝ) : ℂ) ^ 2 * 1 - 0 ^ 2 - 0 ^ 2))⟩
  have h2 : c1.setSource 4 1 0 0 0 none = .ok { c1 with source := some src } := by
    refine Crystal.setSource_eq_ok.2 ⟨four_ne_zero, (0, 0), ?_, ?_⟩
    · simp [Crystal.orDefault, computeKplanar, pure, Except.pure]
    · simp only [hi1, src]
  have hds : ∀ src, StandardDevice { c1 with source := src } ["a", "b"] _ _ _ _ _ _ := fun src =>
      ⟨hd.void, hd.device, hd.stacking, hd.retain, hd.mask_len, hd.ref, hd.ref_form, hd.ref_exp,
        hd.ref_depth, hd.ref_fields, hd.trans, hd.trans_form, hd.trans_exp, hd.trans_depth,
        hd.trans_fields, hd.layers⟩
  have hd2 := hds (some src)
  have ho : SetOrder ("Sref" :: (["a", "b"] ++ ["Strans"])) ["Sref", "a", "b", "Strans"] :=
    ⟨by decide, fun x => by simp⟩
  obtain ⟨rv, hv1, hv2, hvS, hvW, -⟩ := vacuum_halves lib e (wl := 4) four_ne_zero (0, 0) hg
  have hgc : ∀ i, (1 : ℂ) - ((orderKx e (0, 0) 4 i : ℝ) : ℂ) ^ 2 - ((orderKy e (0, 0) 4 i : ℝ) : ℂ) ^ 2 ≠ 0 := by
    intro i h
    exact hg i (by exact_mod_cast h)
  have hlay : ∀ d, ∃ r : Solved N, (Form.uniform 1).solve lib e d (0, 0) 4 = .ok r := fun d =>
    vacuum_solve lib e d (0, 0) (wl := 4) four_ne_zero fun i h => hgc i (by
      refine Eq.trans ?_ h
      simp [orderKx, orderKy])
  obtain ⟨ra, hra⟩ := hlay d
  obtain ⟨rb, hrb⟩ := hlay d'
  have hred : redheffer ra.S rb.S = .ok (redhefferVal ra.S rb.S) := redheffer_eq_ok.2 ⟨by rw [vacuum_s11 hrb]; simp, rfl⟩
  obtain ⟨st, hst, -⟩ := (stackLayers_exists (layers := rv.S :: ([ra.S, rb.S] ++ [rv.S]))
    (mask := true :: (Crystal.maskList ["a", "b"] (.inl true) ++ [true])) (by simp [Crystal.maskList])
    (redhefferVal ra.S rb.S)).2 (by
      rw [hvS]
      constructor
      · simp only [List.cons_append, List.nil_append, leftFold, redheffer_id_left, redheffer_id_right, ok_bind, hred]
      · simp only [List.reverse_cons, List.reverse_nil, List.nil_append, List.cons_append, revFold,
          redheffer_id_left, redheffer_id_right, ok_bind, hred])
  have hx : Crystal.expansion { c1 with source := some src } = e := hexp
  obtain ⟨c3, h3, e1, e2, e3, e4, e5, e6⟩ := hd2.solve_exists (lib := lib) ho
    (src := src) rfl
    (rr := rv) (rt := rv) (rs := [ra, rb]) (st := st)
    (by rw [hx]; simpa [twoLayers, src] using hv1)
    (by rw [hx]; exact .cons hra (.cons hrb .nil))
    (by rw [hx]; simpa [twoLayers, src] using hv2)
    hst
  have hce : c3.expansion = e := by rw [e6]; exact hexp
  obtain ⟨f, hf⟩ := vacuum_fluxes (wl := 4) hN four_pos e1 (by rw [e6]) (by rw [hce]; exact hg)
    (by rw [e6]; exact hi1) (by rw [e6]; exact hie1) e2 rfl hvW e4 rfl hvW
  exact ⟨c3, f, ⟨hfr, c1, _, _, _, h1, h2, ho, h3, rfl, by simp [src]⟩, hf⟩

end Khepri
