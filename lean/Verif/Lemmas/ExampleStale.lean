import Verif.Lemmas.ExampleDevice

set_option linter.unusedSectionVars false

/-!
The plate of `ExampleDevice` at twice the wavelength, where it is a quarter-wave plate.
-/

namespace Khepri

open Matrix

theorem csqrt_pos_two {wl : ℝ} (h : 0 < wl) (t : ℝ) (ht : 0 < t) :
    csqrt (((2 * Real.pi / wl : ℝ) : ℂ) ^ 2 * (t : ℂ) ^ 2) = ((2 * Real.pi / wl * t : ℝ) : ℂ) := by
  have := csqrt_sq_pos (s := 2 * Real.pi / wl * t) (by have := Real.pi_pos; positivity)
  rw [← this]; push_cast; ring_nf

theorem example_kVectors_wl {wl : ℝ} (h : 0 < wl) (t : ℝ) (ht : 0 < t) :
    exampleExpansion.kVectors (0, 0) wl ((t : ℂ) ^ 2) = .ok (0, 0, fun _ => (t : ℂ)) := by
  have hpi := Real.pi_pos
  have hk : ((2 * Real.pi / wl : ℝ) : ℂ) ≠ 0 := by
    have : 2 * Real.pi / wl ≠ 0 := by positivity
    exact_mod_cast this
  refine kVectors_eq_ok.2 ⟨h.ne', ?_, ?_, ?_⟩
  · funext i; simp [exampleExpansion]
  · funext i; simp [exampleExpansion]
  · funext i
    have := csqrt_pos_two h t ht
    have e : star ((t : ℂ) ^ 2) = (t : ℂ) ^ 2 := by simp
    simp only [exampleExpansion, kzFromKplanar, Complex.ofReal_zero, add_zero, ne_eq, OfNat.ofNat_ne_zero,
      not_false_eq_true, zero_pow, sub_zero, e, this]
    rw [Complex.star_def, Complex.conj_ofReal]
    have hw : (wl : ℂ) ≠ 0 := by exact_mod_cast h.ne'
    push_cast at hk ⊢
    field_simp

/-- The same source at wavelength 2. -/
noncomputable def exampleSource2 : Source := ⟨1, 0, 0, 0, 2, (0, 0), Real.pi⟩

theorem example_setSource2 {c : Crystal 1} (h : c.epsi = 1) :
    c.setSource 2 1 0 0 0 none = .ok { c with source := some exampleSource2 } := by
  have : csqrt ((Real.pi) ^ 2 : ℂ) = Real.pi := csqrt_sq_pos Real.pi_pos
  refine Crystal.setSource_eq_ok.2 ⟨two_ne_zero, (0, 0), ?_, ?_⟩
  · simp [Crystal.orDefault, computeKplanar, pure, Except.pure]
  · simp [exampleSource2, h, this]

/-- A plate of index 2 and optical thickness a quarter of the wavelength. -/
theorem quarterWave {ι : Type} [Fintype ι] [DecidableEq ι] :
    buildScatmat 1 ((2 : ℂ) • normalV0 ι) 1 (normalV0 ι)
    (stack2 fun _ => Complex.I * 2) (1 / 4) Real.pi =
      .ok ⟨(-3 / 5 : ℂ) • 1, (-(4 / 5) * Complex.I) • 1, (-(4 / 5) * Complex.I) • 1, (-3 / 5 : ℂ) • 1⟩ := by
  have hX : propX (stack2 fun _ : ι => Complex.I * 2) (1 / 4 * Real.pi) = (-Complex.I) • 1 := by
    rw [propX, ← diagonal_one, ← diagonal_smul, diagonal_eq_diagonal_iff]
    intro j
    have : ∀ j : ι ⊕ ι, -(stack2 (fun _ : ι => Complex.I * 2) j * ((1 / 4 * Real.pi : ℝ) : ℂ)) =
        -(Real.pi / 2 * Complex.I) := by
      rintro (j | j) <;> simp only [stack2, Sum.elim_inl, Sum.elim_inr] <;> push_cast <;> ring
    rw [this, Complex.exp_neg, Complex.exp_pi_div_two_mul_I, Complex.inv_I]
    simp
  have eA : (1 : Matrix (ι ⊕ ι) (ι ⊕ ι) ℂ)⁻¹ * 1 + ((2 : ℂ) • normalV0 ι)⁻¹ * normalV0 ι =
      (3 / 2 : ℂ) • 1 := by
    rw [smul_normalV0_inv two_ne_zero, inv_one, Matrix.one_mul]
    nth_rewrite 1 [← one_smul ℂ (1 : Matrix (ι ⊕ ι) (ι ⊕ ι) ℂ)]
    rw [← add_smul]; norm_num
  have eB : (1 : Matrix (ι ⊕ ι) (ι ⊕ ι) ℂ)⁻¹ * 1 - ((2 : ℂ) • normalV0 ι)⁻¹ * normalV0 ι =
      (1 / 2 : ℂ) • 1 := by
    rw [smul_normalV0_inv two_ne_zero, inv_one, Matrix.one_mul]
    nth_rewrite 1 [← one_smul ℂ (1 : Matrix (ι ⊕ ι) (ι ⊕ ι) ℂ)]
    rw [← sub_smul]; norm_num
  have hA : (3 / 2 : ℂ) ≠ 0 := by norm_num
  have hT : (5 / 3 : ℂ) ≠ 0 := by norm_num
  have hI : Complex.I * Complex.I = -1 := Complex.I_mul_I
  have eT : (3 / 2 : ℂ) • (1 : Matrix (ι ⊕ ι) (ι ⊕ ι) ℂ) -
      ((-Complex.I) • 1) * ((1 / 2 : ℂ) • 1) * (((3 / 2 : ℂ) • 1)⁻¹ * ((-Complex.I) • 1)) * ((1 / 2 : ℂ) • 1) =
        (5 / 3 : ℂ) • 1 := by
    rw [smul_one_inv hA]
    simp only [Matrix.mul_smul, Matrix.mul_one, smul_smul, ← sub_smul]
    congr 1
    linear_combination (-1 / 6 : ℂ) * hI
  refine buildScatmat_eq_ok.2 ⟨_, _, _, _, rfl, rfl, rfl, rfl, by simp, ?_, ?_, ?_, ?_, ?_, rfl, rfl⟩
  · rw [det_smul]; exact mul_ne_zero (pow_ne_zero _ two_ne_zero) normalV0_det
  · rw [eA]; exact smul_one_det hA
  · rw [eA, eB, hX, eT]; exact smul_one_det hT
  · rw [eA, eB, hX, eT, smul_one_inv hA, smul_one_inv hT]
    simp only [Matrix.mul_smul, Matrix.mul_one, smul_smul, ← sub_smul]
    congr 1
    linear_combination (-3 / 10 : ℂ) * hI
  · rw [eA, eB, hX, eT, smul_one_inv hA, smul_one_inv hT]
    simp only [Matrix.mul_smul, Matrix.mul_one, smul_smul, ← sub_smul]
    congr 1
    ring

/-- What solving the plate gives at wavelength 2. -/
noncomputable def examplePlate2 : Solved 1 :=
  ⟨1, ((2 : ℝ) : ℂ) • normalV0 (Fin 1), stack2 fun _ => Complex.I * ((2 : ℝ) : ℂ),
    ⟨(-3 / 5 : ℂ) • 1, (-(4 / 5) * Complex.I) • 1, (-(4 / 5) * Complex.I) • 1, (-3 / 5 : ℂ) • 1⟩,
    .num (1 / 4)⟩

theorem example_kVectors_two : exampleExpansion.kVectors (0, 0) 2 1 = .ok (0, 0, fun _ => 1) := by
  simpa using example_kVectors_wl two_pos 1 one_pos

theorem example_ref_solve2 (lib : NumLib) (d : ℝ) : (Form.halfInc 1).solve lib exampleExpansion d (0, 0) 2 =
    .ok exampleRef := by
  have h := normal_halfSpace (ι := Fin 1) one_pos
  rw [show (((1 : ℝ) : ℂ) ^ 2) = 1 by simp] at h
  have hr : reflectionScatmat 1 (normalV0 (Fin 1)) 1 (((1 : ℝ) : ℂ) • normalV0 (Fin 1)) =
      .ok (scatteringIdentity _) := by
    rw [Complex.ofReal_one, one_smul]; exact normal_reflection
  simp only [Form.solve, example_kVectors_two, ok_bind, normal_freeSpace, scatteringReflection, h, hr]
  simp [inverseEps, exampleRef, ok_bind, pure, Except.pure]

theorem example_plate_solve2 (lib : NumLib) :
    (Form.uniform 4).solve lib exampleExpansion (1 / 4) (0, 0) 2 = .ok examplePlate2 := by
  have h := normal_uniform (ι := Fin 1) two_pos
  rw [show (((2 : ℝ) : ℂ) ^ 2) = 4 by norm_num] at h
  have hr := quarterWave (ι := Fin 1)
  have e : (2 * Real.pi / 2) = Real.pi := by ring
  simp only [Form.solve, example_kVectors_two, ok_bind, normal_freeSpace, h, e, Complex.ofReal_ofNat, hr]
  simp [inverseEps, examplePlate2, ok_bind, pure, Except.pure]

theorem example_trans_solve2 (lib : NumLib) {s : ℝ} (hs : 0 < s) (d : ℝ) :
    (Form.halfTrn ((s : ℂ) ^ 2)).solve lib exampleExpansion d (0, 0) 2 = .ok (exampleTrans s) := by
  have h0 : (s : ℂ) ≠ 0 := by exact_mod_cast hs.ne'
  have h := normal_halfSpace (ι := Fin 1) hs
  simp only [Form.solve, example_kVectors_two, ok_bind, normal_freeSpace, scatteringTransmission, h,
    normal_transmission hs]
  simp [inverseEps, exampleTrans, ok_bind, pure, Except.pure, h0]

theorem fresnel_one (ι : Type) [DecidableEq ι] : fresnel ι 1 = scatteringIdentity (ι ⊕ ι) := by
  unfold fresnel scatteringIdentity
  norm_num

/-- The fluxes of the amplitudes of a normally incident wave. -/
theorem example_flux {wl : ℝ} (h : 0 < wl) (v : Vec2 1) :
    poyntingFluxes exampleExpansion v (0, 0) wl 1 1 =
      .ok (‖v (.inl 0)‖ ^ 2 + ‖v (.inr 0)‖ ^ 2, fun _ => ‖v (.inl 0)‖ ^ 2 + ‖v (.inr 0)‖ ^ 2) := by
  have hk := example_kVectors_wl h 1 one_pos
  rw [show ((1 : ℝ) : ℂ) ^ 2 = 1 by simp] at hk
  have hpi := Real.pi_pos
  have hkk : ((2 * Real.pi / wl : ℝ) : ℂ) ≠ 0 := by
    have : 2 * Real.pi / wl ≠ 0 := by positivity
    exact_mod_cast this
  have hz : star (csqrt (((2 * Real.pi / wl : ℝ) : ℂ) ^ 2 * 1 - 0 ^ 2 - 0 ^ 2)) / ((2 * Real.pi / wl : ℝ) : ℂ) = 1 := by
    have := csqrt_pos_two h 1 one_pos
    simp only [Complex.ofReal_one, one_pow, mul_one] at this
    rw [show ((2 * Real.pi / wl : ℝ) : ℂ) ^ 2 * 1 - 0 ^ 2 - 0 ^ 2 = ((2 * Real.pi / wl : ℝ) : ℂ) ^ 2 by ring, this,
      Complex.star_def, Complex.conj_ofReal, div_self hkk]
  refine poyntingFluxes_eq_ok.2 ⟨h.ne', 0, 0, _, hk, ?_, ?_, ?_, ?_⟩
  · simp
  · simp only [hz]; simp
  · funext i
    simp only [hz]
    rw [Subsingleton.elim i 0]
    simp
  · simp

/-- The incident wave of the example. -/
def exampleWave : Vec2 1 := Sum.elim (fun _ => 1) fun _ => 0

/-- Fluxes of a vacuum-to-vacuum device of one order at normal incidence. -/
theorem example_flux_end {c : Crystal 1} {st : Stacked (Fin 1 ⊕ Fin 1)} {wl : ℝ} {kzi : ℂ} {ref tr : AnyLayer 1}
    (hwl : 0 < wl) (hsrc : c.source = some ⟨1, 0, 0, 0, wl, (0, 0), kzi⟩) (hst : c.stacked = some st)
    (hr : c.layers "Sref" = some ref) (hrW : ref.W = some 1) (ht : c.layers "Strans" = some tr)
    (htW : tr.W = some 1) (he : c.expansion = exampleExpansion) (hi : c.epsi = 1) (hie : c.epse = 1) :
    ∃ f, c.poyntingFluxEnd = .ok f ∧ f.R = ‖(st.Stot.s11 *ᵥ exampleWave) (.inl 0)‖ ^ 2 +
      ‖(st.Stot.s11 *ᵥ exampleWave) (.inr 0)‖ ^ 2 := by
  have hinc : incident 1 1 0 ⟨0, 0, kzi⟩ = .ok exampleWave := by
    refine incident_eq_ok.2 ⟨one_pos, by simp [polNorm], _, _, polarisations_small (by simp), ?_⟩
    funext i
    rcases i with i | i <;> simp [polNorm, exampleWave]
  refine ⟨_, Crystal.poyntingFluxEnd_eq_ok.2 ⟨st, _, exampleWave, ref, tr, 1, 1, _, _, hst, hsrc, hinc, hr, hrW,
    by simp, ht, htW, by rw [he, hi, hie]; exact example_flux hwl _, by rw [he, hi]; exact example_flux hwl _,
    rfl⟩, ?_⟩
  simp

/-- The vacuum crystal with the plate, at wavelength 2. -/
theorem example_solve2 (lib : NumLib) {c1 : Crystal 1}
    (h1 : (exampleCrystal 1).setDevice ["a"] (.inl true) = .ok c1) :
    ∃ c3 f, ({ c1 with source := some exampleSource2 } : Crystal 1).solve lib ["Sref", "a", "Strans"] = .ok c3 ∧
      c3.poyntingFluxEnd = .ok f ∧ f.R = 9 / 25 := by
  have hf := example_fresh 1 true
  obtain ⟨c1', h1', hd, hexp, -, hi, hie⟩ := Crystal.setDevice_standard (m := .inl true) hf.void hf.noRef
    hf.noTrans hf.layers (by simp [Crystal.maskList])
  rw [h1] at h1'
  cases h1'
  have ho : SetOrder ("Sref" :: (["a"] ++ ["Strans"])) ["Sref", "a", "Strans"] :=
    ⟨by decide, fun x => by simp⟩
  have hd2 : StandardDevice { c1 with source := some exampleSource2 } ["a"] [true]
      { Layer.halfInfinite exampleExpansion true 1 with fields := true }
      [{ Layer.uniform exampleExpansion 4 (1 / 4) with fields := true }]
      { Layer.halfInfinite exampleExpansion false (((1 : ℝ) : ℂ) ^ 2) with fields := true } 1 (((1 : ℝ) : ℂ) ^ 2) := by
    have : ∀ src, StandardDevice { c1 with source := src } ["a"] _ _ _ _ _ _ := fun src =>
      ⟨hd.void, hd.device, hd.stacking, hd.retain, hd.mask_len, hd.ref, hd.ref_form, hd.ref_exp,
        hd.ref_depth, hd.ref_fields, hd.trans, hd.trans_form, hd.trans_exp, hd.trans_depth,
        hd.trans_fields, hd.layers⟩
    have := this (some exampleSource2)
    simpa [Crystal.maskList, Crystal.requested, exampleCrystal, Layer.uniform] using this
  have hst : ∃ st, stackLayers [scatteringIdentity _, examplePlate2.S, fresnel (Fin 1) ((1 : ℝ) : ℂ)]
      [true, true, true] = .ok st ∧ st.Stot = examplePlate2.S := by
    rw [Complex.ofReal_one, fresnel_one]
    refine (stackLayers_exists (by simp) _).2 ⟨?_, ?_⟩
    · simp only [leftFold, redheffer_id_left, redheffer_id_right, ok_bind]
    · simp only [List.reverse_cons, List.reverse_nil, List.nil_append, List.cons_append, revFold,
        redheffer_id_left, redheffer_id_right, ok_bind]
  obtain ⟨st, hst, hS⟩ := hst
  obtain ⟨c3, h3, e1, e2, e3, e4, e5, e6⟩ := hd2.solve_exists (lib := lib) ho (src := exampleSource2) rfl
    (rr := exampleRef) (rt := exampleTrans 1) (rs := [examplePlate2]) (st := st)
    (by rw [show Crystal.expansion { c1 with source := some exampleSource2 } = exampleExpansion from hexp]
        exact example_ref_solve2 lib 0)
    (by rw [show Crystal.expansion { c1 with source := some exampleSource2 } = exampleExpansion from hexp]
        exact .cons (example_plate_solve2 lib) .nil)
    (by rw [show Crystal.expansion { c1 with source := some exampleSource2 } = exampleExpansion from hexp]
        exact example_trans_solve2 lib one_pos 0)
    hst
  obtain ⟨f, hf1, hf2⟩ := example_flux_end (c := c3) (st := st) two_pos (by rw [e6]; rfl) e1 e2
    (by simp [AnyLayer.W, Layer.store, exampleRef]) e4 (by simp [AnyLayer.W, Layer.store, exampleTrans])
    (by rw [e6]; exact hexp) (by rw [e6]; exact hi) (by rw [e6]; exact hie.trans (by simp [exampleCrystal]))
  refine ⟨c3, f, h3, hf1, ?_⟩
  rw [hf2, hS]
  simp [examplePlate2, exampleWave, smul_mulVec]
  norm_num

/-- The device solved at wavelength 1 still answers, with its old matrices, when the source is moved
to wavelength 2. -/
theorem example_stale (lib : NumLib) {c1 c3 : Crystal 1}
    (h1 : (exampleCrystal 1).setDevice ["a"] (.inl true) = .ok c1)
    (h3 : ({ c1 with source := some exampleSource } : Crystal 1).solve lib ["Sref", "a", "Strans"] = .ok c3) :
    c3.epsi = 1 ∧ ∃ f, ({ c3 with source := some exampleSource2 } : Crystal 1).poyntingFluxEnd = .ok f ∧ f.R = 0 := by
  obtain ⟨c1', c2, c3', st, k1, k2, hs2, ho, k3, e1, eS, -, ⟨lr, er, fr⟩, -, ⟨lt, et, ft, -⟩, -, -, hs3,
    hexp, hi, hie⟩ := example_solve lib one_pos true
  rw [h1] at k1
  cases k1
  have hi1 : c1.epsi = 1 := by
    have hf := example_fresh 1 true
    obtain ⟨c1', h1', hd, hexp, -, hi, hie⟩ := Crystal.setDevice_standard (m := .inl true) hf.void hf.noRef
      hf.noTrans hf.layers (by simp [Crystal.maskList])
    rw [h1] at h1'
    cases h1'
    exact hi
  rw [example_setSource hi1] at k2
  cases k2
  rw [h3] at k3
  cases k3
  obtain ⟨f, hf1, hf2⟩ := example_flux_end (c := { c3 with source := some exampleSource2 }) (st := st) two_pos rfl e1 er
    (by simp [AnyLayer.W, Layer.store, exampleRef, fr]) et
    (by simp [AnyLayer.W, Layer.store, exampleTrans, ft]) hexp hi (hie.trans (by simp))
  refine ⟨hi, f, hf1, ?_⟩
  rw [hf2, eS]
  simp

end Khepri
