import Verif.Lemmas.Volume
import Verif.Props.Fields

/-!
# Property C69: fields in a volume and the Poynting vector
-/

namespace Khepri

open Matrix

variable {N : ℕ}

/-! ### C69 -/

/-- **C69.** `fields_volume` holds, plane by plane and point by point, what `fields_coords_xy` returns there. -/
theorem C69_volume {c : Crystal N} {pts : List (ℝ × ℝ)} {zs : List ℝ} {inc : Option (Vec2 N × Vec2 N)}
    {V : List (List Crystal.Point6)} (h : c.fieldsVolume pts zs inc = .ok V) :
    zs ≠ [] ∧ V.length = zs.length ∧ ∀ (k : ℕ) (z : ℝ), zs[k]? = some z → ∃ plane : List Crystal.Point6, V[k]? = some plane ∧
      plane.length = pts.length ∧ ∀ (j : ℕ) (q : ℝ × ℝ), pts[j]? = some q → ∃ P, plane[j]? = some P ∧
        c.fieldsAt q.1 q.2 z inc none = .ok P := by
  simp only [Crystal.fieldsVolume, bind_eq_ok, pyCheck_eq_ok, pure, Except.pure, Except.ok.injEq, mapM_eq_ok] at h
  obtain ⟨EH, hE, fs, hf, -, hne, rfl⟩ := h
  have hlen := hf.length_eq
  refine ⟨fun h0 => hne (List.length_eq_zero_iff.1 (by rw [← hlen, h0]; rfl)), hlen.symm, fun k z hk => ?_⟩
  obtain ⟨hk1, rfl⟩ := List.getElem?_eq_some_iff.1 hk
  have hk2 : k < fs.length := by omega
  have := (List.forall₂_iff_get.1 hf).2 k hk1 hk2
  simp only [List.get_eq_getElem] at this
  obtain ⟨h1, src, EH', f, h2, h3, h4, h5, h6⟩ := fieldsXY_eq_ok.1 this
  simp only [Crystal.orDefault, Except.ok.injEq] at h3
  subst h3
  refine ⟨fs[k], List.getElem?_eq_getElem hk2, by rw [h6, List.length_map], fun j q hq => ?_⟩
  refine ⟨_, by rw [h6, List.getElem?_map, hq]; rfl, ?_⟩
  exact fieldsAt_eq_ok.2 ⟨h1, src, EH, f, h2, hE, h4, h5, rfl⟩

/-- **C69.** It fails only where one of the planes fails, or with no depth at all. -/
theorem C69_volume_defined {c : Crystal N} {q : ℝ × ℝ} {pts : List (ℝ × ℝ)} {zs : List ℝ} {inc : Option (Vec2 N × Vec2 N)}
    (hz : zs ≠ []) (h : ∀ z ∈ zs, ∃ P, c.fieldsAt q.1 q.2 z inc none = .ok P) :
    ∃ V, c.fieldsVolume pts zs inc = .ok V := by
  obtain ⟨z0, h0⟩ := List.exists_mem_of_ne_nil zs hz
  obtain ⟨P0, hP0⟩ := h z0 h0
  obtain ⟨-, -, EH, -, -, hE, -⟩ := fieldsAt_eq_ok.1 hP0
  have hx : ∀ z ∈ zs, ∃ L, c.fieldsXY pts z (some EH) none = .ok L := by
    intro z hz'
    obtain ⟨P, hP⟩ := h z hz'
    obtain ⟨h1, src, EH', f, h2, h3, h4, h5, -⟩ := fieldsAt_eq_ok.1 hP
    rw [hE] at h3
    obtain rfl := Except.ok.inj h3
    exact ⟨_, fieldsXY_eq_ok.2 ⟨h1, src, EH, f, h2, rfl, h4, h5, rfl⟩⟩
  obtain ⟨fs, hfs⟩ : ∃ fs, zs.mapM (fun z => c.fieldsXY pts z (some EH) none) = .ok fs := by
    clear hz h h0 hP0
    induction zs with
    | nil => exact ⟨[], rfl⟩
    | cons a l ih =>
      obtain ⟨fs, hfs⟩ := ih fun z hz => hx z (List.mem_cons_of_mem _ hz)
      obtain ⟨L, hL⟩ := hx a List.mem_cons_self
      exact ⟨L :: fs, mapM_eq_ok.2 (.cons hL (mapM_eq_ok.1 hfs))⟩
  refine ⟨fs, ?_⟩
  have hl := (mapM_eq_ok.1 hfs).length_eq
  have : fs ≠ [] := fun h' => hz (List.length_eq_zero_iff.1 (by rw [hl, h']; rfl))
  simp only [Crystal.fieldsVolume, hE, hfs, ok_bind, pyCheck_ok this]
  rfl

/-- Fields in a volume of two planes and two points: the example plate, for all incident fields. -/
example : ∃ c : Crystal 1, ∀ v, ∃ V, c.fieldsVolume [(0, 0), (1, 2)] [-1, 0] (some v) = .ok V := by
  obtain ⟨c1, c2, c3, h1, h2, hs, ho, h3, hs3, hst, hexp, hu⟩ := example_fields one_pos true
  have hkp : exampleSource.kp = (((0 : ℝ × ℝ).1 : ℂ), ((0 : ℝ × ℝ).2 : ℂ)) := by simp [exampleSource]
  obtain ⟨-, -, hsurj, Ms, -, hA⟩ := fields_core (exampleLib_contract 1) (example_fresh 1 true) h1 h2 ho h3 hs hkp
    (by simp [Layer.uniform])
  refine ⟨c3, fun v => C69_volume_defined (q := (0, 0)) (by simp) fun z hz => ?_⟩
  obtain ⟨a, b, hab⟩ := hsurj v.1 v.2
  obtain ⟨Φ, -, -, hQ⟩ := hA a
  have hz0 : z ≤ 0 := by
    simp only [List.mem_cons, List.not_mem_nil, or_false] at hz
    rcases hz with rfl | rfl <;> norm_num
  obtain ⟨f, hf, -⟩ := hQ z (.inl hz0) (hu _) b v.1 v.2 hab
  exact ⟨_, fieldsAt_eq_ok.2 ⟨hst, exampleSource, v, f, hs3, rfl, by simp [exampleSource], hf, rfl⟩⟩

/-- **C69 (partial).** The average over the unit cell of the component along `z` of `poynting_vector` has as
*imaginary* part the power through the plane, whatever the incidence.  Missing: its real part, which is not the power
(`C69_counterexample`). -/
theorem C69_power_partial {tag : ℕ} {pw : ℕ × ℕ} {lat : R2 × R2} {c : Crystal (pw.1 * pw.2)}
    (he : Expansion.make tag pw lat = .ok c.expansion) {src : Source} (hs : c.source = some src) {kp : ℝ × ℝ}
    (hkp : src.kp = (↑kp.1, ↑kp.2)) {z : ℝ} {E H : Vec2 (pw.1 * pw.2)} {F : Fields6 (pw.1 * pw.2)}
    (hF : c.fourierFields z E H = .ok F) {G : ℝ → ℝ → Crystal.Point6}
    (hG : ∀ x y, c.fieldsAt x y z (some (E, H)) none = .ok (G x y)) :
    (cellMean lat.1 lat.2 fun x y => poyntingVector (G x y).E (G x y).H 2).im = fluxZ F.transverse := by
  obtain ⟨o, hi, ho⟩ := make_dual he
  have hGe : ∀ x y, G x y = pointOf c.expansion ((kp.1 : ℂ), (kp.2 : ℂ)) F x y := by
    intro x y
    obtain ⟨-, src', EH, f, h2, h3, -, h5, h6⟩ := fieldsAt_eq_ok.1 (hG x y)
    rw [hs] at h2
    obtain rfl := Option.some.inj h2
    simp only [Crystal.orDefault, Except.ok.injEq] at h3
    subst h3
    rw [hF] at h5
    obtain rfl := Except.ok.inj h5
    rw [h6, Option.getD_none, hkp]
  have hP : ∀ x y, poyntingVector (G x y).E (G x y).H 2 =
      (∑ i ∈ Finset.univ, ![fun x y => (pointOf c.expansion ((kp.1 : ℂ), (kp.2 : ℂ)) F x y).ex *
          star (pointOf c.expansion ((kp.1 : ℂ), (kp.2 : ℂ)) F x y).hy,
        fun x y => (pointOf c.expansion ((kp.1 : ℂ), (kp.2 : ℂ)) ⟨0, -F.sy, 0, 0, 0, 0⟩ x y).ey *
          star (pointOf c.expansion ((kp.1 : ℂ), (kp.2 : ℂ)) F x y).hx] i x y) := by
    intro x y
    rw [hGe]
    simp only [poyntingVector, Crystal.Point6.E, Crystal.Point6.H, cross_apply, Fin.sum_univ_two, cons_val, Pi.star_apply,
      cons_val_zero, cons_val_one]
    simp only [pointOf, idft, Pi.neg_apply, neg_mul, Finset.sum_neg_distrib]
    ring
  have hcont : ∀ u v : Fin (pw.1 * pw.2) → ℂ, Continuous fun p : ℝ × ℝ =>
      idft u (fun i => (kp.1 : ℂ) + ((c.expansion.g i).1 : ℂ)) (fun i => (kp.2 : ℂ) + ((c.expansion.g i).2 : ℂ)) p.1 p.2 *
      star (idft v (fun i => (kp.1 : ℂ) + ((c.expansion.g i).1 : ℂ)) (fun i => (kp.2 : ℂ) + ((c.expansion.g i).2 : ℂ))
        p.1 p.2) := by
    intro u v
    simp only [idft]
    fun_prop
  simp only [hP]
  rw [cellMean_sum]
  · simp only [Fin.sum_univ_two, cons_val_zero, cons_val_one, pointOf]
    rw [cellMean_parseval hi ho kp, cellMean_parseval hi ho kp]
    simp only [fluxZ, Fields6.transverse, Sum.elim_inl, Sum.elim_inr, Complex.add_im, Complex.im_sum, ← Finset.sum_neg_distrib,
      ← Finset.sum_add_distrib]
    refine Finset.sum_congr rfl fun i _ => ?_
    simp only [Pi.neg_apply, RCLike.star_def, Complex.mul_im, Complex.sub_im, Complex.conj_re, Complex.conj_im, Complex.neg_re,
      Complex.neg_im]
    ring
  · intro i _
    fin_cases i
    · exact hcont _ _
    · exact hcont _ _

/-- **C69** is false for the real part: for a plane wave crossing vacuum, `poynting_vector` of the fields returned has
no real part along `z`, at any point of the plane, though the wave carries power. -/
theorem C69_counterexample : ∃ (c1 c2 c3 : Crystal 1) (E H : Vec2 1) (F : Fields6 1) (G : ℝ → ℝ → Crystal.Point6),
    (exampleCrystal 1).setDevice [] (.inl true) = .ok c1 ∧
    c1.setSource 1 1 0 0 0 (some (((2 * Real.pi * (3 / 5) : ℝ) : ℂ), ((0 : ℝ) : ℂ))) = .ok c2 ∧
    c2.solve exampleLib ["Sref", "Strans"] = .ok c3 ∧ c3.fourierFields 0 E H = .ok F ∧
    (∀ x y, c3.fieldsAt x y 0 (some (E, H)) none = .ok (G x y)) ∧
    (∀ x y, (poyntingVector (G x y).E (G x y).H 2).re = 0) ∧ 0 < fluxZ F.transverse := by
  obtain ⟨c1, c2, c3, h1, h2, hs, ho, h3, hexp, hs3, -, -, hl, hg, st, hst, -⟩ :=
    empty_solve exampleLib (κ := 3 / 5) (by norm_num) 1 0 true
  have hu : ∀ z, Unclamped c3 z := empty_unclamped (κ := 3 / 5) (by norm_num) hl hg
  have hkp : (obliqueSource (3 / 5) 1 0).kp =
      ((((2 * Real.pi * (3 / 5), 0) : ℝ × ℝ).1 : ℂ), (((2 * Real.pi * (3 / 5), 0) : ℝ × ℝ).2 : ℂ)) := rfl
  obtain ⟨-, -, -, Ms, hM, hA⟩ := fields_core (exampleLib_contract 1) (empty_fresh true) h1 h2 ho h3 hs hkp (by simp)
  obtain ⟨Φ, hΦ, -, hQ⟩ := hA (fun _ => 1)
  obtain ⟨F, hF, hT, -⟩ := hQ 0 (.inl le_rfl) (hu 0) 0 _ _ rfl
  have hT := hT (by simp)
  obtain ⟨t, ht⟩ := hΦ.outgoing
  obtain ⟨b, hb⟩ := hΦ.incident
  simp only [List.map_nil, List.sum_nil] at ht
  have hkz : outerKz (1 - (3 / 5 : ℝ) ^ 2) = ((4 / 5 : ℝ) : ℂ) := by
    rw [outerKz_pos (by norm_num), show (1 : ℝ) - (3 / 5) ^ 2 = (4 / 5) ^ 2 by norm_num, Real.sqrt_sq (by norm_num)]
  have hE : ∀ j, (Φ 0).E j = t j := fun j => by
    rw [ht]; simp [outerField]
  have hHy : (Φ 0).H (.inr 0) = -(5 / 4) * Complex.I * t (.inl 0) := by
    rw [ht]
    simp only [exampleCrystal]
    rw [oblique_outer, hkz]
    simp only [Pi.zero_apply, zero_sub, neg_div, neg_neg]
    rw [div_eq_iff (by simp)]
    push_cast
    linear_combination (t (.inl 0)) * Complex.I_mul_I
  have hHx : (Φ 0).H (.inl 0) = (4 / 5) * Complex.I * t (.inr 0) := by
    rw [ht]
    simp only [exampleCrystal]
    simp only [outerField, maxwellQ_mulVec, oblique_kx, oblique_ky, Sum.elim_inl, Complex.ofReal_one,
      one_smul, one_mulVec, Complex.ofReal_zero, zero_mul, zero_sub, Pi.zero_apply, ne_eq, OfNat.ofNat_ne_zero,
      not_false_eq_true, zero_pow, sub_zero, hkz]
    have h0 : Complex.I * ((4 / 5 : ℝ) : ℂ) ≠ 0 := by simp
    have h' : t (.inr 0) / (Complex.I * ((4 / 5 : ℝ) : ℂ)) = -(5 / 4) * Complex.I * t (.inr 0) := by
      rw [div_eq_iff h0]
      push_cast
      linear_combination (t (.inr 0)) * Complex.I_mul_I
    rw [neg_div, h']
    push_cast
    ring
  have ht1 : t (.inl 0) = 1 := by
    have k1 := hE (.inl 0)
    have k2 := hHy
    rw [hb] at k1 k2
    simp only [exampleCrystal] at k1 k2
    rw [oblique_outer, hkz] at k2
    simp only [outerField, Pi.add_apply] at k1
    have h0 : Complex.I * ((4 / 5 : ℝ) : ℂ) ≠ 0 := by simp
    rw [← neg_div, div_eq_iff h0] at k2
    push_cast at k2
    linear_combination (-1 / 2 : ℂ) * k1 - (1 / 2 : ℂ) * k2 + (1 / 2 : ℂ) * t (.inl 0) * Complex.I_mul_I
  refine ⟨c1, c2, c3, _, _, F, fun x y => pointOf exampleExpansion
    (((2 * Real.pi * (3 / 5) : ℝ) : ℂ), ((0 : ℝ) : ℂ)) F x y, h1, h2, h3, hF, ?_, ?_, ?_⟩
  · intro x y
    refine fieldsAt_eq_ok.2 ⟨by simp [hst], _, (_, _), _, hs3, rfl, by simp [obliqueSource], hF, ?_⟩
    rw [hexp]; rfl
  · intro x y
    obtain ⟨w, hw, hp⟩ : ∃ w : ℂ, w * star w = 1 ∧ ∀ s : Fin 1 → ℂ, idft s
        (fun i => ((2 * Real.pi * (3 / 5) : ℝ) : ℂ) + ((exampleExpansion.g i).1 : ℂ))
        (fun i => ((0 : ℝ) : ℂ) + ((exampleExpansion.g i).2 : ℂ)) x y = s 0 * w := by
      refine ⟨Complex.exp (((2 * Real.pi * (3 / 5) * x : ℝ) : ℂ) * Complex.I), ?_, fun s => ?_⟩
      · rw [RCLike.star_def, Complex.mul_conj, Complex.normSq_eq_norm_sq, Complex.norm_exp_ofReal_mul_I]; simp
      · simp only [idft, Finset.univ_unique, Fin.default_eq_zero, Fin.isValue, Finset.sum_singleton, exampleExpansion]
        congr 2
        push_cast
        ring
    have e1 : F.sx 0 = t (.inl 0) := by rw [← hE, ← hT]; rfl
    have e2 : F.sy 0 = t (.inr 0) := by rw [← hE, ← hT]; rfl
    have e3 : F.uy 0 = -(5 / 4) * Complex.I * t (.inl 0) := by rw [← hHy, ← hT]; rfl
    have e4 : F.ux 0 = (4 / 5) * Complex.I * t (.inr 0) := by rw [← hHx, ← hT]; rfl
    have e5 : poyntingVector (pointOf exampleExpansion (((2 * Real.pi * (3 / 5) : ℝ) : ℂ), ((0 : ℝ) : ℂ)) F x y).E
        (pointOf exampleExpansion (((2 * Real.pi * (3 / 5) : ℝ) : ℂ), ((0 : ℝ) : ℂ)) F x y).H 2 =
        Complex.I * ((5 / 4) * (t (.inl 0) * star (t (.inl 0))) + 4 / 5 * (t (.inr 0) * star (t (.inr 0)))) := by
      simp only [poyntingVector, Crystal.Point6.E, Crystal.Point6.H, cross_apply, cons_val, Pi.star_apply,
        cons_val_zero, cons_val_one, pointOf, hp, e1, e2, e3, e4]
      simp only [star_mul', star_neg, RCLike.star_def, Complex.conj_I, map_div₀, map_ofNat]
      simp only [RCLike.star_def] at hw
      linear_combination (Complex.I * ((5 / 4) * (t (.inl 0) * (starRingEnd ℂ) (t (.inl 0))) + 4 / 5 * (t (.inr 0) * (starRingEnd ℂ) (t (.inr 0))))) * hw
    rw [e5]
    simp only [RCLike.star_def, Complex.mul_conj]
    have : Complex.I * (5 / 4 * (Complex.normSq (t (.inl 0)) : ℂ) + 4 / 5 * (Complex.normSq (t (.inr 0)) : ℂ)) =
        ((5 / 4 * Complex.normSq (t (.inl 0)) + 4 / 5 * Complex.normSq (t (.inr 0)) : ℝ) : ℂ) * Complex.I := by
      push_cast; ring
    rw [this]; simp
  · rw [hT]
    simp only [fluxZ, Finset.univ_unique, Fin.default_eq_zero, Fin.isValue, Finset.sum_singleton, hE, hHy, hHx, ht1]
    have : star (1 : ℂ) * (-(5 / 4) * Complex.I * 1) - star (t (.inr 0)) * (4 / 5 * Complex.I * t (.inr 0)) =
        ((-(5 / 4) - 4 / 5 * Complex.normSq (t (.inr 0)) : ℝ) : ℂ) * Complex.I := by
      push_cast
      rw [← Complex.mul_conj, RCLike.star_def]
      simp only [map_one]
      ring
    rw [this]
    simp only [Complex.mul_im, Complex.ofReal_re, Complex.I_im, mul_one, Complex.ofReal_im, Complex.I_re, mul_zero, add_zero]
    have := Complex.normSq_nonneg (t (.inr 0))
    linarith

/-- A device and a plane for which `C69_power_partial` applies, with power through the plane. -/
example : ∃ (c : Crystal 1) (E H : Vec2 1) (G : ℝ → ℝ → Crystal.Point6),
    (∀ x y, c.fieldsAt x y 0 (some (E, H)) none = .ok (G x y)) ∧
    0 < (cellMean (1, 0) (0, 1) fun x y => poyntingVector (G x y).E (G x y).H 2).im := by
  obtain ⟨c1, c2, c3, E, H, F, G, h1, h2, h3, hF, hG, -, hp⟩ := C69_counterexample
  obtain ⟨c1', c2', c3', k1, k2, hs, ho, k3, hexp, hs3, -⟩ := empty_solve exampleLib (κ := 3 / 5) (by norm_num) 1 0 true
  obtain rfl := Except.ok.inj (h1.symm.trans k1)
  obtain rfl := Except.ok.inj (h2.symm.trans k2)
  obtain rfl := Except.ok.inj (h3.symm.trans k3)
  refine ⟨c3, E, H, G, hG, ?_⟩
  rw [C69_power_partial (tag := 0) (pw := (1, 1)) (lat := ((1, 0), (0, 1))) (c := c3)
    (by rw [hexp]; exact exampleExpansion_make) hs3 (kp := (2 * Real.pi * (3 / 5), 0)) rfl hF hG]
  exact hp

end Khepri
