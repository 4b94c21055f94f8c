import Verif.Lemmas.ExampleDevice
import Verif.Lemmas.Profile

set_option linter.unusedSectionVars false

/-!
Example: a device without layers in vacuum, lit obliquely (`kx = κ`, propagating or evanescent).
-/

namespace Khepri

open Matrix

section
variable {n : Type} [Fintype n] [DecidableEq n]

theorem matched_reflection {V : Matrix n n ℂ} (hV : V.det ≠ 0) :
    reflectionScatmat 1 V 1 V = .ok (scatteringIdentity n) := by
  have eA : (1 : Matrix n n ℂ)⁻¹ * 1 + V⁻¹ * V = (2 : ℂ) • 1 := by
    rw [inv_mul_of_det hV, inv_one, Matrix.one_mul, two_smul]
  have eB : (1 : Matrix n n ℂ)⁻¹ * 1 - V⁻¹ * V = 0 := by
    rw [inv_mul_of_det hV, inv_one, Matrix.one_mul, sub_self]
  simp only [reflectionScatmat, bind_eq_ok, npSolve_eq_ok, npInv_eq_ok]
  refine ⟨_, ⟨by simp, rfl⟩, _, ⟨hV, rfl⟩, _, ⟨?_, rfl⟩, _, ⟨?_, rfl⟩, ?_⟩
  · rw [eA]; exact smul_one_det two_ne_zero
  · rw [eA]; exact smul_one_det two_ne_zero
  · rw [eA, eB, smul_one_inv two_ne_zero]
    simp only [pure, Except.pure, Except.ok.injEq, scatteringIdentity, SMat.mk.injEq, Matrix.zero_mul,
      Matrix.mul_zero, neg_zero, sub_zero, smul_smul]
    norm_num

theorem matched_transmission {V : Matrix n n ℂ} (hV : V.det ≠ 0) :
    transmissionScatmat 1 V 1 V = .ok (scatteringIdentity n) := by
  have eA : (1 : Matrix n n ℂ)⁻¹ * 1 + V⁻¹ * V = (2 : ℂ) • 1 := by
    rw [inv_mul_of_det hV, inv_one, Matrix.one_mul, two_smul]
  have eB : (1 : Matrix n n ℂ)⁻¹ * 1 - V⁻¹ * V = 0 := by
    rw [inv_mul_of_det hV, inv_one, Matrix.one_mul, sub_self]
  simp only [transmissionScatmat, bind_eq_ok, npSolve_eq_ok, npInv_eq_ok]
  refine ⟨_, ⟨by simp, rfl⟩, _, ⟨hV, rfl⟩, _, ⟨?_, rfl⟩, _, ⟨?_, rfl⟩, ?_⟩
  · rw [eA]; exact smul_one_det two_ne_zero
  · rw [eA]; exact smul_one_det two_ne_zero
  · rw [eA, eB, smul_one_inv two_ne_zero]
    simp only [pure, Except.pure, Except.ok.injEq, scatteringIdentity, SMat.mk.injEq, Matrix.zero_mul,
      Matrix.mul_zero, neg_zero, sub_zero, smul_smul]
    norm_num

theorem empty_stack (mask : List Bool) (hm : mask.length = 2) :
    ∃ st, stackLayers [scatteringIdentity n, scatteringIdentity n] mask = .ok st ∧
    st.Stot = scatteringIdentity n := by
  refine (stackLayers_exists (by simpa using hm) _).2 ⟨?_, ?_⟩
  · simp only [leftFold, redheffer_id_left, ok_bind]
  · simp only [List.reverse_cons, List.reverse_nil, List.nil_append, List.cons_append, revFold,
      redheffer_id_right, ok_bind]

end

/-- The modes of vacuum are those of a half space of permittivity 1. -/
theorem vacuum_halfSpace {ι : Type} [Fintype ι] [DecidableEq ι] {kx ky : ι → ℝ}
    (h : ∀ i, 1 - kx i ^ 2 - ky i ^ 2 ≠ 0) : ∃ V,
    freeSpaceEigenmodes (fun i => (kx i : ℂ)) (fun i => (ky i : ℂ)) = .ok (1, V) ∧ V.det ≠ 0 ∧
    halfSpaceModes (fun i => (kx i : ℂ)) (fun i => (ky i : ℂ)) 1 =
      .ok (1, V, stack2 fun i => Complex.I * outerKz (1 - kx i ^ 2 - ky i ^ 2)) := by
  have e : ∀ i, (1 : ℂ) - (kx i : ℂ) ^ 2 - (ky i : ℂ) ^ 2 = ((1 - kx i ^ 2 - ky i ^ 2 : ℝ) : ℂ) := by
    intro i; push_cast; rfl
  have hm : halfSpaceModes (fun i => (kx i : ℂ)) (fun i => (ky i : ℂ)) 1 =
      .ok (1, Matrix.of fun i j => qBlock (fun i => (kx i : ℂ)) (fun i => (ky i : ℂ)) 1 i j /
        stack2 (fun i => Complex.I * outerKz (1 - kx i ^ 2 - ky i ^ 2)) j,
        stack2 fun i => Complex.I * outerKz (1 - kx i ^ 2 - ky i ^ 2)) := by
    simp only [halfSpaceModes, e, star_csqrt_ofReal, bind_eq_ok, npDivCols_eq_ok]
    refine ⟨_, ⟨?_, rfl⟩, rfl⟩
    rintro (j | j) <;> simp [stack2, outerKz_eq_zero, h j]
  refine ⟨_, ?_, (halfSpaceModes_det one_ne_zero hm).2, hm⟩
  refine freeSpaceEigenmodes_eq_ok.2 ⟨fun i => ?_, rfl, ?_⟩
  · rw [e]; exact_mod_cast h i
  · simp only [e, kzMasked_ofReal]

/-- The source of the example: `kx = κ`, `ky = 0`, wavelength 1. -/
noncomputable def obliqueSource (κ : ℝ) (te tm : ℂ) : Source :=
  ⟨te, tm, 0, 0, 1, ((2 * Real.pi * κ : ℝ), (0 : ℝ)),
    star (csqrt (((2 * Real.pi / 1 : ℝ) : ℂ) ^ 2 * 1 - ((2 * Real.pi * κ : ℝ) : ℂ) ^ 2 - ((0 : ℝ) : ℂ) ^ 2))⟩

theorem empty_fresh (b : Bool) : FreshDevice (exampleCrystal 1) [] (.inl b) [] ((1 : ℝ) : ℂ) ((1 : ℝ) : ℂ) where
  void := rfl
  epsi := by simp [exampleCrystal]
  epse := by simp [exampleCrystal]
  noRef := by simp [exampleCrystal]
  noTrans := by simp [exampleCrystal]
  layers := .nil
  mask := by simp

theorem oblique_kx (κ : ℝ) (i : Fin 1) : orderKx exampleExpansion (2 * Real.pi * κ, 0) 1 i = κ := by
  have : (2 * Real.pi) ≠ 0 := by positivity
  simp only [orderKx, exampleExpansion]
  field_simp; ring

theorem oblique_ky (κ : ℝ) (i : Fin 1) : orderKy exampleExpansion (2 * Real.pi * κ, 0) 1 i = 0 := by
  simp [orderKy, exampleExpansion]

theorem oblique_kVectors (κ : ℝ) : ∃ kz, exampleExpansion.kVectors (((2 * Real.pi * κ : ℝ) : ℂ), ((0 : ℝ) : ℂ)) 1 1 =
    .ok ((fun i => ((orderKx exampleExpansion (2 * Real.pi * κ, 0) 1 i : ℝ) : ℂ)),
      (fun i => ((orderKy exampleExpansion (2 * Real.pi * κ, 0) 1 i : ℝ) : ℂ)), kz) := by
  refine ⟨_, kVectors_eq_ok.2 ⟨one_ne_zero, ?_, ?_, rfl⟩⟩
  · funext i; simp [orderKx]
  · funext i; simp [orderKy]

/-- What solving the half spaces gives. -/
noncomputable def vacuumSolved (κ : ℝ) (V : Mat2 1) : Solved 1 :=
  ⟨1, V, stack2 fun _ => Complex.I * outerKz (1 - κ ^ 2), scatteringIdentity _, .num 1⟩

theorem vacuum_solves (lib : NumLib) {κ : ℝ} (hκ : 1 - κ ^ 2 ≠ 0) : ∃ V,
    (Form.halfInc 1).solve lib exampleExpansion 0 (((2 * Real.pi * κ : ℝ) : ℂ), ((0 : ℝ) : ℂ)) 1 =
      .ok (vacuumSolved κ V) ∧
    (Form.halfTrn 1).solve lib exampleExpansion 0 (((2 * Real.pi * κ : ℝ) : ℂ), ((0 : ℝ) : ℂ)) 1 =
      .ok (vacuumSolved κ V) := by
  obtain ⟨kz, hk⟩ := oblique_kVectors κ
  obtain ⟨V, hV0, hVd, hV⟩ := vacuum_halfSpace (kx := orderKx exampleExpansion (2 * Real.pi * κ, 0) 1)
    (ky := orderKy exampleExpansion (2 * Real.pi * κ, 0) 1)
    (fun i => by rw [oblique_kx, oblique_ky]; simpa using hκ)
  have hL : (stack2 fun i => Complex.I * outerKz (1 - orderKx exampleExpansion (2 * Real.pi * κ, 0) 1 i ^ 2 -
      orderKy exampleExpansion (2 * Real.pi * κ, 0) 1 i ^ 2)) = stack2 fun _ : Fin 1 => Complex.I * outerKz (1 - κ ^ 2) := by
    simp only [oblique_kx, oblique_ky]; simp
  rw [hL] at hV
  refine ⟨V, ?_, ?_⟩
  · simp only [Form.solve, hk, ok_bind, hV0, scatteringReflection, hV, matched_reflection hVd]
    simp [inverseEps, ok_bind, pure, Except.pure, vacuumSolved]
  · simp only [Form.solve, hk, ok_bind, hV0, scatteringTransmission, hV, matched_transmission hVd]
    simp [inverseEps, ok_bind, pure, Except.pure, vacuumSolved]

theorem empty_setup {κ : ℝ} (te tm : ℂ) (b : Bool) : ∃ c1 c2,
    (exampleCrystal 1).setDevice [] (.inl b) = .ok c1 ∧
    c1.setSource 1 te tm 0 0 (some (((2 * Real.pi * κ : ℝ) : ℂ), ((0 : ℝ) : ℂ))) = .ok c2 ∧
    c2.source = some (obliqueSource κ te tm) ∧ c2.expansion = exampleExpansion ∧ c2.epsi = 1 ∧ c2.epse = 1 ∧
    StandardDevice c2 [] [] { Layer.halfInfinite exampleExpansion true 1 with fields := true } []
      { Layer.halfInfinite exampleExpansion false 1 with fields := true } 1 1 := by
  have hf := empty_fresh b
  obtain ⟨c1, h1, hd, hexp, -, hi, hie⟩ := Crystal.setDevice_standard (m := .inl b) hf.void hf.noRef
    hf.noTrans hf.layers (by simp [Crystal.maskList])
  have hi1 : c1.epsi = 1 := by rw [hi]; rfl
  have hie1 : c1.epse = 1 := by rw [hie]; simp [exampleCrystal]
  have h2 : c1.setSource 1 te tm 0 0 (some (((2 * Real.pi * κ : ℝ) : ℂ), ((0 : ℝ) : ℂ))) =
      .ok { c1 with source := some (obliqueSource κ te tm) } := by
    refine Crystal.setSource_eq_ok.2 ⟨one_ne_zero, _, rfl, ?_⟩
    simp only [obliqueSource, hi1]
  have : ∀ src, StandardDevice { c1 with source := src } [] _ _ _ _ _ _ := fun src =>
      ⟨hd.void, hd.device, hd.stacking, hd.retain, hd.mask_len, hd.ref, hd.ref_form, hd.ref_exp,
        hd.ref_depth, hd.ref_fields, hd.trans, hd.trans_form, hd.trans_exp, hd.trans_depth,
        hd.trans_fields, hd.layers⟩
  have := this (some (obliqueSource κ te tm))
  refine ⟨c1, _, h1, h2, rfl, hexp, hi1, hie1, ?_⟩
  simpa [Crystal.maskList, Crystal.requested, exampleCrystal] using this

/-- A device without layers in vacuum can be set up, lit and solved. -/
theorem empty_solve (lib : NumLib) {κ : ℝ} (hκ : 1 - κ ^ 2 ≠ 0) (te tm : ℂ) (b : Bool) : ∃ c1 c2 c3,
    (exampleCrystal 1).setDevice [] (.inl b) = .ok c1 ∧
    c1.setSource 1 te tm 0 0 (some (((2 * Real.pi * κ : ℝ) : ℂ), ((0 : ℝ) : ℂ))) = .ok c2 ∧
    c2.source = some (obliqueSource κ te tm) ∧
    SetOrder ("Sref" :: ([] ++ ["Strans"])) ["Sref", "Strans"] ∧
    c2.solve lib ["Sref", "Strans"] = .ok c3 ∧
    c3.expansion = exampleExpansion ∧ c3.source = some (obliqueSource κ te tm) ∧ c3.epsi = 1 ∧ c3.epse = 1 ∧
    (∀ x ∈ ["Sref", "Strans"], ∃ l : Layer 1, c3.layers x = some (.plain l) ∧ l.depth = 0 ∧ l.W = some 1 ∧
      l.L = some (stack2 fun _ => Complex.I * outerKz (1 - κ ^ 2))) ∧
    c3.globalStacking = some ["Sref", "Strans"] ∧ (∃ st, c3.stacked = some st ∧ st.Stot = scatteringIdentity _) := by
  obtain ⟨c1, c2, h1, h2, hs, hexp, hi, hie, hd⟩ := empty_setup (κ := κ) te tm b
  have ho : SetOrder ("Sref" :: ([] ++ ["Strans"])) ["Sref", "Strans"] := ⟨by decide, fun x => by simp⟩
  obtain ⟨st, hst, hS⟩ := empty_stack (n := Fin 1 ⊕ Fin 1) [true, true] rfl
  obtain ⟨V, hr, ht⟩ := vacuum_solves lib hκ
  rw [← hexp] at hr ht
  obtain ⟨c3, h3, e1, e2, e3, e4, e5, e6⟩ := hd.solve_exists (lib := lib) ho hs (rs := []) (st := st)
    (rr := vacuumSolved κ V) (rt := vacuumSolved κ V) hr .nil ht hst
  refine ⟨c1, c2, c3, h1, h2, hs, ho, h3, ?_, ?_, ?_, ?_, ?_, ?_, ⟨st, e1, hS⟩⟩
  · rw [e6]; exact hexp
  · rw [e6]; exact hs
  · rw [e6]; exact hi
  · rw [e6]; exact hie
  · intro x hx
    simp only [List.mem_cons, List.not_mem_nil, or_false] at hx
    rcases hx with rfl | rfl
    · exact ⟨_, e2, rfl, rfl, rfl⟩
    · exact ⟨_, e4, rfl, rfl, rfl⟩
  · rw [e6]; exact hd.stacking

/-- The layer `locate_layer` returns is one of the device's. -/
theorem locateLayer_mem {N : ℕ} {c : Crystal N} {z : ℝ} {l : AnyLayer N} {idx : ℤ} {zr : EReal}
    (h : c.locateLayer z = .ok (l, idx, zr)) {names : List String} (hn : c.globalStacking = some names) :
    ∃ x ∈ names, c.layers x = some l := by
  simp only [Crystal.locateLayer, bind_eq_ok] at h
  obtain ⟨ns, h1, x, h2, lo, h3, _, h4, l', h5, h6⟩ := h
  rw [hn] at h1
  simp only [Crystal.attr, Except.ok.injEq] at h1
  subst h1
  simp only [pure, Except.pure, Except.ok.injEq, Prod.mk.injEq] at h6
  obtain ⟨rfl, -⟩ := h6
  simp only [pyGetZ, bind_eq_ok, pure, Except.pure, Except.ok.injEq] at h2
  obtain ⟨k, -, rfl⟩ := h2
  refine ⟨_, List.get_mem _ k, ?_⟩
  simp only [Crystal.layer] at h5
  split at h5
  · rename_i l0 hl0
    simp only [Except.ok.injEq] at h5
    rw [hl0, h5]
  · simp at h5

/-- Nothing is clamped in a device whose modes all propagate without loss. -/
theorem unclamped_of_imag {N : ℕ} {c : Crystal N} {names : List String} (hn : c.globalStacking = some names)
    (h : ∀ x ∈ names, ∀ l L, c.layers x = some l → l.L = some L → ∀ i, (L i).re = 0) (z : ℝ) : Unclamped c z := by
  intro l idx zr src L hl hs hL i
  obtain ⟨x, hx, hlx⟩ := locateLayer_mem hl hn
  have h0 := h x hx l L hlx hL i
  constructor
  · rw [Complex.norm_exp, Complex.re_mul_ofReal, h0]; norm_num
  · rw [Complex.norm_exp, Complex.neg_re, Complex.re_mul_ofReal, h0]; norm_num

end Khepri
