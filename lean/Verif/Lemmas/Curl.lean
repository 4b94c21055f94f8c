import Verif.Lemmas.FieldsUser
import Mathlib.Analysis.Calculus.Deriv.Mul
import Mathlib.Analysis.Calculus.Deriv.Add

set_option linter.unusedSectionVars false

/-!
The fields returned obey Maxwell's equations in Fourier space.
-/

namespace Khepri

open Matrix

variable {N : ℕ}

theorem mtrans_eq_flow {ι : Type} [Fintype ι] [DecidableEq ι] (P Q : Matrix (ι ⊕ ι) (ι ⊕ ι) ℂ) (t : ℝ)
    (F : Tang (ι ⊕ ι)) : mtrans P Q t F = flow P Q F t :=
  maxwellTransfer_iff_flow.1 (maxwellTransfer_iff.2 rfl)

/-- The derivative of a profile inside a medium. -/
theorem hasDerivAt_profile {P Q : Matrix (Fin N ⊕ Fin N) (Fin N ⊕ Fin N) ℂ} {k0 u v : ℝ}
    {Φ : ℝ → Tang (Fin N ⊕ Fin N)}
    (h : ∀ z z', u < z → z ≤ z' → z' < v → MaxwellTransfer P Q (k0 * (z' - z)) (Φ z) (Φ z')) {z : ℝ}
    (hz : z ∈ Set.Ioo u v) (i : Fin N ⊕ Fin N) :
    HasDerivAt (fun z => (Φ z).E i) (k0 * (P *ᵥ (Φ z).H) i) z ∧
      HasDerivAt (fun z => (Φ z).H i) (k0 * (Q *ᵥ (Φ z).E) i) z := by
  obtain ⟨w, hw1, hw2⟩ := exists_between hz.1
  have e : ∀ᶠ y in nhds z, Φ y = flow P Q (Φ w) (k0 * (y - w)) := by
    filter_upwards [Ioo_mem_nhds hw2 hz.2] with y hy
    exact maxwellTransfer_iff_flow.1 (h w y hw1 hy.1.le hy.2)
  have ez : Φ z = flow P Q (Φ w) (k0 * (z - w)) := e.self_of_nhds
  have hg : HasDerivAt (fun y : ℝ => k0 * (y - w)) k0 z := by
    simpa using ((hasDerivAt_id z).sub_const w).const_mul k0
  constructor
  · have := (hasDerivAt_flow_E P Q (Φ w) (k0 * (z - w)) i).scomp z hg
    rw [← ez] at this
    refine (this.congr_of_eventuallyEq (e.mono fun y hy => ?_)).congr_deriv ?_
    · simp only [hy, Function.comp]
    · simp
  · have := (hasDerivAt_flow_H P Q (Φ w) (k0 * (z - w)) i).scomp z hg
    rw [← ez] at this
    refine (this.congr_of_eventuallyEq (e.mono fun y hy => ?_)).congr_deriv ?_
    · simp only [hy, Function.comp]
    · simp

section
variable {lib : NumLib} {order : List String} {c c1 c2 c3 : Crystal N} {stack : List String}
  {m : Bool ⊕ List Bool} {Ls : List (Layer N)} {er et : ℝ} {wl : ℝ} {te tm : ℂ} {theta phi : ℝ}
  {kpo : Option (ℂ × ℂ)}

theorem mediumBetween_at {jv1 : ℝ → ℝ} {e : Expansion N} {u v z : ℝ} {C : Matrix (Fin N) (Fin N) ℂ}
    (h : MediumBetween jv1 e Ls er et u v C) (hz : z ∈ Set.Ioo u v) : PermittivityAt jv1 e Ls er et z C := by
  rcases h with ⟨h, rfl⟩ | ⟨h, rfl⟩ | ⟨i, l, hl, h1, h2, hC⟩
  · exact .inl ⟨hz.2.le.trans h, rfl⟩
  · exact .inr (.inl ⟨h.trans_lt hz.1, rfl⟩)
  · exact .inr (.inr ⟨i, l, hl, h1.trans_lt hz.1, hz.2.le.trans h2, hC⟩)

theorem deviceSolution_medium {jv1 : ℝ → ℝ} {e : Expansion N} {kx ky : Fin N → ℝ} {k0 : ℝ}
    {Ms : List (Mat2 N × Mat2 N × ℝ)} {a : Vec2 N} {Φ : ℝ → Tang (Fin N ⊕ Fin N)}
    (hM : LayerEquations jv1 e kx ky k0 Ls Ms) (hΦ : DeviceSolution kx ky er et k0 Ms (Ls.map Layer.depth) a Φ)
    {u v : ℝ} {C : Matrix (Fin N) (Fin N) ℂ} (h : MediumBetween jv1 e Ls er et u v C) :
    ∀ z z', u < z → z ≤ z' → z' < v → MaxwellTransfer (maxwellP (fun i => (kx i : ℂ)) (fun i => (ky i : ℂ)) C)
      (maxwellQ (fun i => (kx i : ℂ)) (fun i => (ky i : ℂ)) C) (k0 * (z' - z)) (Φ z) (Φ z') := by
  intro z z' h1 h2 h3
  rcases h with ⟨h, rfl⟩ | ⟨h, rfl⟩ | ⟨i, l, hl, g1, g2, hC⟩
  · exact hΦ.field.before z z' h2 (h3.le.trans h)
  · exact hΦ.field.after z z' (h.trans h1.le) h2
  · have hi := (List.getElem?_eq_some_iff.1 hl).1
    have hlen : Ls.length = Ms.length := List.Forall₂.length_eq hM
    have hMi : Ms[i]? = some (Ms[i]'(by omega)) := List.getElem?_eq_getElem (by omega)
    obtain ⟨C', p1, p2, p3⟩ := forall₂_get hM hl hMi
    obtain rfl := permittivity_unique hC p1
    have := hΦ.field.inside i _ hMi z z' (g1.trans h1.le) h2 (h3.le.trans g2)
    rw [p3] at this
    exact this

theorem curl_core (he : EigContract (lib.eig N)) (hc : FreshDevice c stack m Ls er et)
    (h1 : c.setDevice stack m = .ok c1) (h2 : c1.setSource wl te tm theta phi kpo = .ok c2)
    (ho : SetOrder ("Sref" :: (stack ++ ["Strans"])) order) (h3 : c2.solve lib order = .ok c3)
    {src : Source} (hs : c2.source = some src) {kp : ℝ × ℝ} (hkp : src.kp = (↑kp.1, ↑kp.2))
    (hpos : ∀ l ∈ Ls, 0 ≤ l.depth) {u v : ℝ} {C : Matrix (Fin N) (Fin N) ℂ}
    (hm : MediumBetween lib.jv1 c.expansion Ls er et u v C)
    (hz : ∀ z ∈ Set.Ioo u v, RequestedAt (Ls.map Layer.depth) (Crystal.maskList stack m) z ∧ Unclamped c3 z ∧
      (z ≤ (Ls.map Layer.depth).sum ∨ et = 1)) {E H : Vec2 N} {F : ℝ → Fields6 N}
    (hF : ∀ z ∈ Set.Ioo u v, c3.fourierFields z E H = .ok (F z)) :
    ∀ z ∈ Set.Ioo u v, CurlEquations (orderKx c.expansion kp wl) (orderKy c.expansion kp wl)
      (2 * Real.pi / wl) C F z := by
  obtain ⟨her, het, hsurj, Ms, hM, hA⟩ := fields_core he hc h1 h2 ho h3 hs hkp hpos
  have hCd : C.det ≠ 0 := by
    rcases hm with ⟨-, rfl⟩ | ⟨-, rfl⟩ | ⟨i, l, hl, -, -, hC⟩
    · exact smul_one_det (by exact_mod_cast her)
    · exact smul_one_det (by exact_mod_cast het)
    · have hi := (List.getElem?_eq_some_iff.1 hl).1
      have hlen : Ls.length = Ms.length := List.Forall₂.length_eq hM
      obtain ⟨C', p1, p2, -⟩ := forall₂_get hM hl (List.getElem?_eq_getElem (show i < Ms.length by omega))
      obtain rfl := permittivity_unique hC p1
      exact p2
  obtain ⟨a, b, hab⟩ := hsurj E H
  obtain ⟨Φ, hΦ, -, hQ⟩ := hA a
  set kx := orderKx c.expansion kp wl
  set ky := orderKy c.expansion kp wl
  have hf : ∀ z ∈ Set.Ioo u v, (F z).transverse = Φ z ∧ LongitudinalAt kx ky C (F z) := by
    intro z hz'
    obtain ⟨r1, r2, r3⟩ := hz z hz'
    obtain ⟨f, f1, f2, f3, f4⟩ := hQ z r1 r2 b E H hab
    obtain rfl : F z = f := Except.ok.inj ((hF z hz').symm.trans f1)
    refine ⟨?_, f4 C (mediumBetween_at hm hz')⟩
    rcases le_or_gt z (Ls.map Layer.depth).sum with hzD | hzD
    · exact f2 hzD
    · obtain rfl := r3.resolve_left (not_le.2 hzD)
      obtain ⟨t, ht⟩ := hΦ.outgoing
      exact (f3 hzD t ht).2 rfl
  intro z hz'
  have hnb : ∀ᶠ y in nhds z, y ∈ Set.Ioo u v := Ioo_mem_nhds hz'.1 hz'.2
  obtain ⟨hT, hLz, hLu⟩ := hf z hz'
  have hsz : ∀ i, (C⁻¹ *ᵥ fun j => (kx j : ℂ) * (F z).uy j - ky j * (F z).ux j) i = Complex.I * (F z).sz i := by
    have : (fun j => (kx j : ℂ) * (F z).uy j - ky j * (F z).ux j) = Complex.I • (C *ᵥ (F z).sz) := by
      rw [hLz]
      funext j
      simp only [Pi.smul_apply, smul_eq_mul]
      rw [← mul_assoc, mul_neg, Complex.I_mul_I, neg_neg, one_mul]
    intro i
    rw [this, mulVec_smul, mulVec_mulVec, nonsing_inv_mul _ (isUnit_iff_ne_zero.2 hCd), one_mulVec]
    rfl
  have huz : ∀ i, (F z).uz i = -Complex.I * (kx i * (F z).sy i - ky i * (F z).sx i) := fun i => by rw [hLu]
  have hder := fun i => hasDerivAt_profile (deviceSolution_medium hM hΦ hm) hz' i
  have hE : (Φ z).E = Sum.elim (F z).sx (F z).sy := by rw [← hT]; rfl
  have hH : (Φ z).H = Sum.elim (F z).ux (F z).uy := by rw [← hT]; rfl
  have hI := Complex.I_mul_I
  refine ⟨fun i => ?_, fun i => ?_, fun i => ?_, fun i => ?_, fun i => congrFun hLz i, huz⟩
  · refine ((hder (.inl i)).1.congr_of_eventuallyEq (hnb.mono fun y hy => ?_)).congr_deriv ?_
    · simp only [← (hf y hy).1]; rfl
    · rw [hH, maxwellP_mulVec]
      simp only [Sum.elim_inl, Sum.elim_inr, hsz]
      push_cast
      ring
  · refine ((hder (.inr i)).1.congr_of_eventuallyEq (hnb.mono fun y hy => ?_)).congr_deriv ?_
    · simp only [← (hf y hy).1]; rfl
    · rw [hH, maxwellP_mulVec]
      simp only [Sum.elim_inl, Sum.elim_inr, hsz]
      push_cast
      ring
  · refine ((hder (.inl i)).2.congr_of_eventuallyEq (hnb.mono fun y hy => ?_)).congr_deriv ?_
    · simp only [← (hf y hy).1]; rfl
    · rw [hE, maxwellQ_mulVec, huz]
      simp only [Sum.elim_inl, Sum.elim_inr]
      push_cast
      linear_combination (-(2 * Real.pi / wl : ℂ)) * kx i * ((kx i : ℂ) * (F z).sy i - ky i * (F z).sx i) * hI
  · refine ((hder (.inr i)).2.congr_of_eventuallyEq (hnb.mono fun y hy => ?_)).congr_deriv ?_
    · simp only [← (hf y hy).1]; rfl
    · rw [hE, maxwellQ_mulVec, huz]
      simp only [Sum.elim_inl, Sum.elim_inr]
      push_cast
      linear_combination (-(2 * Real.pi / wl : ℂ)) * ky i * ((kx i : ℂ) * (F z).sy i - ky i * (F z).sx i) * hI

end

end Khepri
