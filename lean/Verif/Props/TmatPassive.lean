import Verif.Lemmas.TmatPassive
import Verif.Props.TmatPhysics
import Verif.Props.Laid

/-!
# C99: T-matrix devices of lossy media lose power

In this formulation fields go as `exp(-iωt)`: media with a positive imaginary part of the permittivity are lossy.
-/

namespace Khepri

open Matrix Complex

variable {pw : ℕ × ℕ} {a1 a2 : R2} {ei ee : PyNum} {l : TLattice} {jv1 : ℝ → ℝ} {wl : ℝ} {a b : ℝ}
  {islands : List (TShape × ℂ)} {host : ℂ}

/-- The accuracy of the transforms of rectangles in a layer, for the permittivity and its inverse (0 for discs). -/
noncomputable def TLattice.tol (l : TLattice) (islands : List (TShape × ℂ)) (host : ℂ) (f : ℂ → ℂ) : ℝ :=
  l.shape.1 * l.shape.2 * patternTol (tPattern f islands) (f host) l.area

/-- **C99.** A layer of islands without gain does not amplify: at least as much power enters as leaves, in whatever
combination of orders, propagating or evanescent.  All the media absorb at least as much as the accuracy of the
transforms of rectangles. -/
theorem C99_layer (hJ : BesselOne jv1) (h : TLattice.make pw a1 a2 ei ee = .ok l) (hp : pw.1 = pw.2 ∨ pw.2 = 1)
    (h0 : 0 < pw.1) (hb : Periods l.b) {δ δ' : ℝ} (hl : LossyIslands (a1, a2) islands host δ δ')
    (hδ : l.tol islands host id ≤ δ) (hδ' : l.tol islands host (1 / ·) ≤ δ') (hw : 0 < wl) {depth : ℝ} (hd : 0 ≤ depth)
    {k : ℕ} {S V : Matrix (TIdx l.shape) (TIdx l.shape) ℂ}
    (hS : tmatScattering jv1 l islands host wl (↑a, ↑b) depth k = .ok S) (hV : l.V l.epsI wl (↑a, ↑b) = .ok V) :
    TPassive V V S := by
  have hs := (TLattice.make_shape_iff h h0).2 (hp.imp_right le_of_eq)
  refine TLattice.layer_passive h hs hw (fun x => ?_) (fun x => ?_) hd hS hV
  · exact (mul_nonneg (sub_nonneg.2 hδ) (Finset.sum_nonneg fun i _ => by positivity)).trans
      (TLattice.coupling_im hJ h hs hb hl x).1
  · exact neg_nonneg.1 ((mul_nonneg (sub_nonneg.2 hδ') (Finset.sum_nonneg fun i _ => by positivity)).trans
      (TLattice.coupling_im hJ h hs hb hl x).2)

/-- Islands that are discs (or change nothing). -/
def Discs (islands : List (TShape × ℂ)) : Prop :=
  ∀ d ∈ islands, d.1 = .uniform ∨ ∃ x y r, d.1 = .shape (.disc x y r)

theorem discs_tol (l : TLattice) (hd : Discs islands) (f : ℂ → ℂ) : l.tol islands host f = 0 := by
  have : patternTol (tPattern f islands) (f host) l.area = 0 := by
    rw [patternTol, div_eq_zero_iff]
    left
    refine List.sum_eq_zero fun x hx => ?_
    obtain ⟨s, hs, rfl⟩ := List.mem_map.1 hx
    obtain ⟨⟨sh, eps⟩, hm, he⟩ := List.mem_filterMap.1 hs
    rcases hd _ hm with h | ⟨x, y, r, h⟩
    · simp only at h; subst h; cases he
    · simp only at h; subst h; cases he; simp [Shape.rectArea]
  rw [TLattice.tol, this, mul_zero]

theorem inv_im_nonpos {z : ℂ} (h : 0 ≤ z.im) : (1 / z).im ≤ -0 := by
  rw [one_div, inv_im, neg_zero]
  exact div_nonpos_of_nonpos_of_nonneg (neg_nonpos.2 h) (normSq_nonneg z)

/-- **C99.** For discs nothing is lost in accuracy: it is enough that no medium has gain. -/
theorem C99_discs (hJ : BesselOne jv1) (h : TLattice.make pw a1 a2 ei ee = .ok l) (hp : pw.1 = pw.2 ∨ pw.2 = 1)
    (h0 : 0 < pw.1) (hb : Periods l.b) (hD : Discs islands) (hlaid : Laid (a1, a2) (tPattern id islands))
    (hh : 0 ≤ host.im) (hi : ∀ d ∈ islands, 0 ≤ d.2.im) (hw : 0 < wl) {depth : ℝ} (hd : 0 ≤ depth)
    {k : ℕ} {S V : Matrix (TIdx l.shape) (TIdx l.shape) ℂ}
    (hS : tmatScattering jv1 l islands host wl (↑a, ↑b) depth k = .ok S) (hV : l.V l.epsI wl (↑a, ↑b) = .ok V) :
    TPassive V V S :=
  C99_layer hJ h hp h0 hb ⟨hlaid, ⟨hh, inv_im_nonpos hh⟩, fun d hd => ⟨hi d hd, inv_im_nonpos (hi d hd)⟩⟩
    (discs_tol l hD id).le (discs_tol l hD (1 / ·)).le hw hd hS hV

/-- **C99.** Layers let no wave end inside them. -/
theorem C99_through (h : TLattice.make pw a1 a2 ei ee = .ok l) (hp : pw.1 = pw.2 ∨ pw.2 = 1) (h0 : 0 < pw.1)
    {depth : ℝ} {k : ℕ} {S : Matrix (TIdx l.shape) (TIdx l.shape) ℂ}
    (hS : tmatScattering jv1 l islands host wl (↑a, ↑b) depth k = .ok S) : TThrough S := by
  have hs := (TLattice.make_shape_iff h h0).2 (hp.imp_right le_of_eq)
  intro u hu
  obtain ⟨U, V, hU, hV, -⟩ := TLattice.layer_S h hs hS
  obtain ⟨f, hf, hfu, hfv⟩ := (TLattice.layer_relates h hs hS hV u 0).1 hu
  rw [mulVec_zero] at hfv
  have h1 := flow_joins.1 ⟨f, hf, hfu, hfv⟩
  rw [mulVec_zero] at h1
  have := congrArg (U *ᵥ ·) h1
  rwa [mulVec_mulVec, TLattice.U_mul_Vi hU hV, one_mulVec, mulVec_zero] at this

/-- **C99.** A layer of lossy media absorbs whatever reaches it. -/
theorem C99_lossy (hJ : BesselOne jv1) (h : TLattice.make pw a1 a2 ei ee = .ok l) (hp : pw.1 = pw.2 ∨ pw.2 = 1)
    (h0 : 0 < pw.1) (hb : Periods l.b) {δ δ' : ℝ} (hl : LossyIslands (a1, a2) islands host δ δ')
    (hδ : l.tol islands host id < δ) (hδ' : l.tol islands host (1 / ·) < δ') (hw : 0 < wl) {depth : ℝ} (hd : 0 < depth)
    {k : ℕ} {S V : Matrix (TIdx l.shape) (TIdx l.shape) ℂ}
    (hS : tmatScattering jv1 l islands host wl (↑a, ↑b) depth k = .ok S) (hV : l.V l.epsI wl (↑a, ↑b) = .ok V) :
    TLossyPart V V S := by
  have hs := (TLattice.make_shape_iff h h0).2 (hp.imp_right le_of_eq)
  obtain ⟨c1, c2⟩ := TLattice.coupling_strict hJ h hs hb hl hδ hδ'
  exact TLattice.layer_lossy h hs hw c1 c2 hd hS hV

/-- **C99.** Such a layer never raises, whatever the orders and the slicing. -/
theorem C99_exists (hJ : BesselOne jv1) (h : TLattice.make pw a1 a2 ei ee = .ok l) (hp : pw.1 = pw.2 ∨ pw.2 = 1)
    (h0 : 0 < pw.1) (hb : Periods l.b) {δ δ' : ℝ} (hl : LossyIslands (a1, a2) islands host δ δ')
    (hδ : l.tol islands host id < δ) (hδ' : l.tol islands host (1 / ·) < δ') (hw : 0 < wl) {r : ℝ} (he : l.epsI.val = r)
    (hr : 0 < r) (hk0 : ∀ k, flatT l.shape (l.kz l.epsI wl (↑a, ↑b)) k ≠ 0) {depth : ℝ} (hd : 0 ≤ depth) (k : ℕ) :
    ∃ S, tmatScattering jv1 l islands host wl (↑a, ↑b) depth k = .ok S := by
  have hs := (TLattice.make_shape_iff h h0).2 (hp.imp_right le_of_eq)
  obtain ⟨c1, c2⟩ := TLattice.coupling_strict hJ h hs hb hl hδ hδ'
  have hpos : 0 < δ := lt_of_le_of_lt (TLattice.tol_nonneg l id) hδ
  have hne : ∀ z : ℂ, δ ≤ z.im → z ≠ 0 := fun z hz h => by rw [h, zero_im] at hz; linarith
  exact TLattice.lossy_exists h hs ⟨h0, by rcases hp with hp | hp <;> omega⟩ (hne _ hl.host.1)
    (fun d hd => hne _ (hl.islands d hd).1) c1 c2 (TLattice.transforms hJ h hb hl.laid) hw he hr hk0 hd k

section Cascade
variable {g : Type} [Fintype g] [DecidableEq g] {Va Vb Vc Vi Ve : Matrix ((g ⊕ g) ⊕ (g ⊕ g)) ((g ⊕ g) ⊕ (g ⊕ g)) ℂ}
  {S0 S1 S2 Sint S : Matrix ((g ⊕ g) ⊕ (g ⊕ g)) ((g ⊕ g) ⊕ (g ⊕ g)) ℂ}

/-- **C99.** A cascade of parts without gain has none, and loses what one of them loses. -/
theorem C99_cascade (h1 : TPassive Va Vb S1) (h2 : TPassive Vb Vc S2) (h : multS S1 S2 = .ok S) :
    TPassive Va Vc S ∧ (TThrough S1 → TThrough S2 → TThrough S) ∧ (TLossyPart Va Vb S1 → TLossyPart Va Vc S) ∧
      (TThrough S1 → TLossyPart Vb Vc S2 → TLossyPart Va Vc S) := by
  refine ⟨fun u w huw => ?_, fun t1 t2 u hu => ?_, fun l1 u w huw hu => ?_, fun t1 l2 u w huw hu => ?_⟩
  · obtain ⟨v, hv1, hv2⟩ := (multS_chain h u w).1 huw
    exact (h2 v w hv2).trans (h1 u v hv1)
  · obtain ⟨v, hv1, hv2⟩ := (multS_chain h u 0).1 hu
    rw [t2 v hv2] at hv1
    exact t1 u hv1
  · obtain ⟨v, hv1, hv2⟩ := (multS_chain h u w).1 huw
    exact (h2 v w hv2).trans_lt (l1 u v hv1 hu)
  · obtain ⟨v, hv1, hv2⟩ := (multS_chain h u w).1 huw
    refine (l2 v w hv2 fun hv => hu ?_).trans_le (h1 u v hv1)
    rw [hv] at hv1
    exact t1 u hv1

/-- **C99.** So does a device of any number of layers and an interface, cascaded from the left. -/
theorem C99_device {layers : List (Matrix ((g ⊕ g) ⊕ (g ⊕ g)) ((g ⊕ g) ⊕ (g ⊕ g)) ℂ)}
    (h0 : TPassive Vi Vi S0 ∧ TThrough S0) (hl : ∀ S ∈ layers, TPassive Vi Vi S ∧ TThrough S) (hint : TPassive Vi Ve Sint)
    (h1 : layers.foldlM multS S0 = .ok S1) (h : multS S1 Sint = .ok S) :
    TPassive Vi Ve S ∧ ((∃ X ∈ S0 :: layers, TLossyPart Vi Vi X) → TLossyPart Vi Ve S) := by
  have key : (TPassive Vi Vi S1 ∧ TThrough S1) ∧ ((∃ X ∈ S0 :: layers, TLossyPart Vi Vi X) → TLossyPart Vi Vi S1) := by
    clear h hint
    induction layers generalizing S0 with
    | nil => cases h1; exact ⟨h0, fun ⟨X, hX, hx⟩ => by rw [List.mem_singleton] at hX; rwa [hX] at hx⟩
    | cons A t ih =>
      rw [List.foldlM_cons, bind_eq_ok] at h1
      obtain ⟨X, hX, h1⟩ := h1
      obtain ⟨c1, c2, c3, c4⟩ := C99_cascade h0.1 (hl A List.mem_cons_self).1 hX
      obtain ⟨k1, k2⟩ := ih ⟨c1, c2 h0.2 (hl A List.mem_cons_self).2⟩ (fun S hS => hl S (List.mem_cons_of_mem _ hS)) h1
      refine ⟨k1, fun ⟨Y, hY, hy⟩ => ?_⟩
      rw [List.mem_cons, List.mem_cons] at hY
      rcases hY with rfl | rfl | hY
      · exact k2 ⟨X, List.mem_cons_self, c3 hy⟩
      · exact k2 ⟨X, List.mem_cons_self, c4 h0.2 hy⟩
      · exact k2 ⟨Y, List.mem_cons_of_mem _ hY, hy⟩
  obtain ⟨c1, -, c3, -⟩ := C99_cascade key.1.1 hint h
  exact ⟨c1, fun hx => c3 (key.2 hx)⟩

end Cascade

/-- **C99.** The interface neither loses nor gains. -/
theorem C99_interface {S Vi Ve : Matrix (TIdx l.shape) (TIdx l.shape) ℂ} (hS : tmatInterface l wl (↑a, ↑b) = .ok S)
    (hi : l.V l.epsI wl (↑a, ↑b) = .ok Vi) (he : l.V l.epsE wl (↑a, ↑b) = .ok Ve) : TPassive Vi Ve S :=
  fun u v huv => (C61_interface hS hi he u v huv).ge

/-- **C99.** Device without gain between real positive media at normal incidence, excited from the left in propagating
orders: `R + T ≤ 1`, and what the code calls `A` is the share of the incident power that is lost.  When a part absorbs
whatever reaches it, `A` is positive. -/
theorem C99_fluxes {ri re : ℝ} (hi : l.epsI.val = ri) (hri : 0 < ri) (he : l.epsE.val = re) (hre : 0 < re) (hw : 0 < wl)
    (hI : ∀ k, (flatT l.shape (l.kz l.epsI wl (0, 0)) k).im = 0 ∨ floatEps < (flatT l.shape (l.kz l.epsI wl (0, 0)) k).im)
    (hE : ∀ k, (flatT l.shape (l.kz l.epsE wl (0, 0)) k).im = 0 ∨ floatEps < (flatT l.shape (l.kz l.epsE wl (0, 0)) k).im)
    {Vi Ve S : Matrix (TIdx l.shape) (TIdx l.shape) ℂ} (hVi : l.V l.epsI wl (0, 0) = .ok Vi)
    (hVe : l.V l.epsE wl (0, 0) = .ok Ve)
    {pin : TIdx l.shape → ℂ} (hpin : ∀ k, (flatT l.shape (l.kz l.epsI wl (0, 0)) k).im = 0 ∨
      (pin (.inl (.inl k)) = 0 ∧ pin (.inl (.inr k)) = 0)) (hright : ∀ i, pin (.inr i) = 0)
    {kp : ℂ × ℂ} {R T A : ℝ} (h : computeFluxes l wl pin (S *ᵥ pin) kp = .ok (R, T, A)) :
    (∃ u v, TScatters S u v ∧ 0 < TPower (Vi *ᵥ pin) ∧ TPower (Vi *ᵥ u) - TPower (Ve *ᵥ v) = A * TPower (Vi *ᵥ pin)) ∧
    (TPassive Vi Ve S → R + T ≤ 1 ∧ 0 ≤ A) ∧ (TLossyPart Vi Ve S → R + T < 1 ∧ 0 < A) := by
  obtain ⟨hP, hsum, hA⟩ := TLattice.fluxes_power hi hri he hre hw (fun k => (hI k).imp_right fun h => h.trans_le (le_abs_self _))
    (fun k => (hE k).imp_right fun h => h.trans_le (le_abs_self _)) hVi hVe hpin h
  have e : pin = Sum.elim (pin ∘ Sum.inl) 0 := by
    funext i
    rcases i with i | i
    · rfl
    · exact hright i
  have e1 : Sum.elim (Sum.elim (pin ∘ Sum.inl) ((S *ᵥ pin) ∘ Sum.inr) ∘ Sum.inl)
      (Sum.elim ((S *ᵥ pin) ∘ Sum.inl) (0 : Fin (l.shape.1 * l.shape.2) ⊕ Fin (l.shape.1 * l.shape.2) → ℂ) ∘ Sum.inr) = pin := by
    rw [Sum.elim_comp_inl, Sum.elim_comp_inr]; exact e.symm
  have hsc : TScatters S (Sum.elim (pin ∘ Sum.inl) ((S *ᵥ pin) ∘ Sum.inr)) (Sum.elim ((S *ᵥ pin) ∘ Sum.inl) 0) := by
    unfold TScatters
    rw [e1, Sum.elim_comp_inl, Sum.elim_comp_inr, Sum.elim_comp_inl_inr]
  rw [← e] at hP hA
  refine ⟨⟨_, _, hsc, hP, hA⟩, fun hp => ?_, fun hp => ?_⟩
  · have h1 := hp _ _ hsc
    have : 0 ≤ A := by
      by_contra hn
      nlinarith [mul_pos (neg_pos.2 (not_le.1 hn)) hP]
    exact ⟨by linarith, this⟩
  · have hu : Sum.elim (pin ∘ Sum.inl) ((S *ᵥ pin) ∘ Sum.inr) ≠ 0 := by
      intro hu
      have : pin = 0 := by
        rw [e]
        funext i
        rcases i with i | i
        · exact congrFun hu (.inl i)
        · rfl
      rw [this, mulVec_zero] at hP
      simp [TPower] at hP
    have h1 := hp _ _ hsc hu
    have : 0 < A := by
      by_contra hn
      nlinarith [mul_nonneg (neg_nonneg.2 (not_lt.1 hn)) hP.le]
    exact ⟨by linarith, this⟩

/-- **C99.** Any layer has an S-matrix when it is thin enough, lossy or not, however it is sliced. -/
theorem C99_thin (h : TLattice.make pw a1 a2 ei ee = .ok l) (hp : pw.1 = pw.2 ∨ pw.2 = 1) (h0 : 0 < pw.1)
    (hh : host ≠ 0) (hi : ∀ d ∈ islands, d.2 ≠ 0) (ht : ∀ d ∈ islands, ∃ t, l.transform jv1 d.1 = .ok t) (hw : wl ≠ 0)
    {r : ℝ} (he : l.epsI.val = r) (hr : 0 < r) (hk0 : ∀ k, flatT l.shape (l.kz l.epsI wl (↑a, ↑b)) k ≠ 0) :
    ∃ d : ℝ, 0 < d ∧ ∀ depth : ℝ, |depth| < d → ∀ k, ∃ S, tmatScattering jv1 l islands host wl (↑a, ↑b) depth k = .ok S := by
  have hs := (TLattice.make_shape_iff h h0).2 (hp.imp_right le_of_eq)
  exact TLattice.thin_exists h hs ⟨h0, by rcases hp with hp | hp <;> omega⟩ hh hi ht hw he hr hk0

/-- **C99** (overlap). That the islands do not overlap is needed: two lossy discs drawn one over the other in a lossier
host make layers that amplify, of every small depth. -/
theorem C99_overlap (jv1 : ℝ → ℝ) : ∃ (l : TLattice) (d : ℝ),
    TLattice.make (1, 1) (1, 0) (0, 1) (.float 1) (.float 1) = .ok l ∧ 0 < d ∧ ∀ depth : ℝ, 0 < depth → depth < d → ∀ k,
    ∃ S V, tmatScattering jv1 l [(.shape (.disc (1 / 2) (1 / 2) (1 / 2)), 1 + I), (.shape (.disc (1 / 2) (1 / 2) (1 / 2)), 1 + I)]
        (1 + 3 * I) 2 (0, 0) depth k = .ok S ∧
      l.V l.epsI 2 (0, 0) = .ok V ∧ ¬ TPassive V V S := by
  obtain ⟨l, h, hb⟩ := unit_tlattice (1, 1) rfl (.float 1) (.float 1)
  obtain ⟨-, hq, -, har, h1, h2⟩ := TLattice.make_fields h
  have hs : l.shape = (1, 1) := (TLattice.make_shape_iff h (by norm_num)).2 (Or.inl rfl)
  have hI : l.epsI.val = ((1 : ℝ) : ℂ) := by rw [h1]; rfl
  have z0 : (((0 : ℝ) : ℂ), ((0 : ℝ) : ℂ)) = (0, 0) := by simp
  have hk0 : ∀ k, flatT l.shape (l.kz l.epsI 2 (((0 : ℝ) : ℂ), ((0 : ℝ) : ℂ))) k ≠ 0 := fun k => by
    rw [z0, h1]; exact unit_tlattice_kz_ne h hb (Or.inl rfl) k
  have harea : l.area = 1 := by rw [har]; norm_num [unitCellArea]
  have hG : ∀ (i : Fin l.q.1) (j : Fin l.q.2), l.Gx i j = 0 ∧ l.Gy i j = 0 := by
    intro i j
    have hi : (i : ℕ) = 0 := by have := i.2; simp only [hq] at this; omega
    have hj : (j : ℕ) = 0 := by have := j.2; simp only [hq] at this; omega
    obtain ⟨e1, e2⟩ := TLattice.make_Gx h i j
    rw [e1, e2, hi, hj]; simp
  have hdisc : transformShape jv1 (.disc (1 / 2) (1 / 2) (1 / 2)) (0, 0) l.area = .ok ((Real.pi * (1 / 2) ^ 2 / 1 : ℝ) : ℂ) := by
    rw [harea]
    exact C59_zero (jv1 := jv1) (1 / 2) (1 / 2) (1 / 2) 1
  set isl : List (TShape × ℂ) := [(.shape (.disc (1 / 2) (1 / 2) (1 / 2)), 1 + I), (.shape (.disc (1 / 2) (1 / 2) (1 / 2)), 1 + I)] with hisl
  have ht : ∀ d ∈ isl, ∃ t, l.transform jv1 d.1 = .ok t := by
    intro d hd
    simp only [hisl, List.mem_cons, List.not_mem_nil, or_false, or_self] at hd
    subst hd
    refine ⟨fun _ _ => ((Real.pi * (1 / 2) ^ 2 / 1 : ℝ) : ℂ), pyFinM_eq_ok.2 fun i => pyFinM_eq_ok.2 fun j => ?_⟩
    rw [(hG i j).1, (hG i j).2]
    exact hdisc
  have hne1 : (1 + I : ℂ) ≠ 0 := fun h => by simpa using congrArg Complex.re h
  have hne3 : (1 + 3 * I : ℂ) ≠ 0 := fun h => by simpa using congrArg Complex.re h
  obtain ⟨d, hd0, hd⟩ := C99_thin (jv1 := jv1) (islands := isl) (host := 1 + 3 * I) (wl := 2) (a := 0) (b := 0) h (Or.inl rfl)
    (by norm_num) hne3 (by simp [hisl, hne1]) ht two_ne_zero hI one_pos hk0
  refine ⟨l, d, h, hd0, fun depth hp hlt k => ?_⟩
  obtain ⟨S, hS⟩ := hd depth (by rwa [abs_of_pos hp]) k
  obtain ⟨U, V, hU, hV, -⟩ := TLattice.layer_S h hs hS
  refine ⟨S, V, by rw [← z0]; exact hS, by rw [← z0]; exact hV, fun hpas => ?_⟩
  -- a wave in the effective medium
  have hone : ∀ k : Fin (l.shape.1 * l.shape.2), (k : ℕ) = 0 := fun k => by
    have := k.2; simp only [hs] at this; omega
  have hg : ∀ k : Fin (l.shape.1 * l.shape.2), flatT l.shape l.gx k = 0 ∧ flatT l.shape l.gy k = 0 := by
    intro k
    obtain ⟨e1, e2⟩ := TLattice.make_gx h ((k : ℕ) % l.shape.1) ((k : ℕ) / l.shape.1)
    rw [flatT, flatT, e1, e2, hone k]; simp
  set c : ℂ := 1 + ((3 - Real.pi : ℝ) : ℂ) * I with hc
  have hcoup : ∀ x : Fin (l.shape.1 * l.shape.2) → ℂ, l.coupling jv1 isl (1 + 3 * I) id *ᵥ x = fun k => c * x k := by
    intro x
    funext i
    have huniq : ∀ j : Fin (l.shape.1 * l.shape.2), j = i := fun j => Fin.ext ((hone j).trans (hone i).symm)
    rw [mulVec, dotProduct, Finset.sum_eq_single i (fun j _ hj => absurd (huniq j) hj) (by simp)]
    have hcoef : (TShape.shape (.disc (1 / 2) (1 / 2) (1 / 2))).coef jv1 l.area (0, 0) = ((Real.pi * (1 / 2) ^ 2 / 1 : ℝ) : ℂ) := by
      simp only [TShape.coef, hdisc]
    simp only [TLattice.coupling, of_apply, if_true, sub_self, hisl, List.map_cons, List.map_nil, List.sum_cons, List.sum_nil,
      hcoef, id, hc]
    push_cast
    ring
  set n := csqrt c with hn
  have hre : 0 < n.re := csqrt_re_pos_of_re_pos (by simp [hc])
  have him : n.im < 0 := csqrt_im_neg (by simp [hc]; exact Real.pi_gt_three)
  have hn2 : n * n = c := csqrt_mul_self c
  have hm := mu0c_pos
  have hmc : (mu0c : ℂ) ≠ 0 := by exact_mod_cast hm.ne'
  let E : ℝ → ℂ := fun z => exp (I * Real.pi * n * z)
  have hE : ∀ z, HasDerivAt E (I * Real.pi * n * E z) z := by
    intro z
    have h1 : HasDerivAt (fun t : ℝ => (I * Real.pi * n : ℂ) * (t : ℂ)) (I * Real.pi * n * 1) z :=
      (Complex.ofRealCLM.hasDerivAt).const_mul _
    have := h1.cexp
    refine this.congr_deriv ?_
    simp only [E]; ring
  let f : ℝ → TIdx l.shape → ℂ := fun z => Sum.elim (Sum.elim (fun _ => E z) 0) (Sum.elim 0 (fun _ => n / mu0c * E z))
  have hw : ∀ k, l.wave (((0 : ℝ) : ℂ), ((0 : ℝ) : ℂ)) k = 0 := fun k => by simp [TLattice.wave, (hg k).1, (hg k).2]
  have hk2 : ((2 * Real.pi / 2 : ℝ) : ℂ) = Real.pi := by push_cast; ring
  have hf : ∀ z i, HasDerivAt (fun t => f t i) ((tsystem (l.wave (((0 : ℝ) : ℂ), ((0 : ℝ) : ℂ))) (l.coupling jv1 isl (1 + 3 * I) id)
      (l.coupling jv1 isl (1 + 3 * I) (1 / ·)) ((2 * Real.pi / 2 : ℝ) : ℂ) *ᵥ f z) i) z := by
    rw [hk2]
    intro z i
    rcases i with (k | k) | (k | k)
    · rw [(tsystem_mulVec _ _ _ _ (f z) k).1]
      simp only [hw, f, Sum.elim_inl, Sum.elim_inr, Prod.fst_zero, mul_zero, zero_mul, sub_zero]
      refine (hE z).congr_deriv ?_
      field_simp
    · rw [(tsystem_mulVec _ _ _ _ (f z) k).2.1]
      simp only [hw, f, Sum.elim_inl, Sum.elim_inr, Prod.snd_zero, Pi.zero_apply, mul_zero, zero_mul, sub_zero]
      exact hasDerivAt_const z 0
    · rw [(tsystem_mulVec _ _ _ _ (f z) k).2.2.1, hcoup]
      simp only [hw, f, Sum.elim_inl, Sum.elim_inr, Prod.fst_zero, Pi.zero_apply, mul_zero, zero_mul, sub_zero]
      exact hasDerivAt_const z 0
    · rw [(tsystem_mulVec _ _ _ _ (f z) k).2.2.2, hcoup]
      simp only [hw, f, Sum.elim_inl, Sum.elim_inr, Prod.snd_zero, Prod.fst_zero, Pi.zero_apply, mul_zero, zero_mul, sub_zero, zero_add]
      refine ((hE z).const_mul (n / mu0c)).congr_deriv ?_
      rw [← hn2]
      ring
  have hVU := TLattice.Vi_mul_U hU hV
  have hsc := (TLattice.layer_relates h hs hS hV (U *ᵥ f 0) (U *ᵥ f depth)).2 ⟨f, hf, by rw [mulVec_mulVec, hVU, one_mulVec],
    by rw [mulVec_mulVec, hVU, one_mulVec]⟩
  have hle := hpas _ _ hsc
  rw [mulVec_mulVec, mulVec_mulVec, hVU, one_mulVec, one_mulVec] at hle
  have hpow : ∀ z, TPower (f z) = (l.shape.1 * l.shape.2 : ℕ) * (n.re / mu0c * Real.exp (-2 * (Real.pi * n.im * z))) := by
    intro z
    have hEE : E z * star (E z) = (Real.exp (-2 * (Real.pi * n.im * z)) : ℝ) := by
      rw [star_def, mul_conj, normSq_eq_norm_sq, Complex.norm_exp]
      have : (I * Real.pi * n * z : ℂ).re = -(Real.pi * n.im * z) := by simp
      rw [this, ← Real.exp_nat_mul]
      refine congrArg (fun x : ℝ => ((Real.exp x : ℝ) : ℂ)) ?_
      push_cast
      ring
    have hk : ∀ k : Fin (l.shape.1 * l.shape.2), (f z (.inl (.inl k)) * star (f z (.inr (.inr k))) -
        f z (.inl (.inr k)) * star (f z (.inr (.inl k)))).re = n.re / mu0c * Real.exp (-2 * (Real.pi * n.im * z)) := by
      intro k
      simp only [f, Sum.elim_inl, Sum.elim_inr, Pi.zero_apply, zero_mul, sub_zero, star_mul', star_div₀]
      have : E z * (star n / star (mu0c : ℂ) * star (E z)) = star n / mu0c * (E z * star (E z)) := by
        rw [show star (mu0c : ℂ) = mu0c from conj_ofReal _]; ring
      rw [this, hEE, re_mul_ofReal, div_ofReal_re, star_def, conj_re]
    rw [TPower, Finset.sum_congr rfl fun k _ => hk k]
    simp
  rw [hpow, hpow, hs] at hle
  have hlt' : Real.exp (-2 * (Real.pi * n.im * 0)) < Real.exp (-2 * (Real.pi * n.im * depth)) := by
    apply Real.exp_lt_exp.2
    have := mul_pos (mul_pos Real.pi_pos (neg_pos.2 him)) hp
    nlinarith
  have := mul_lt_mul_of_pos_left hlt' (div_pos hre hm)
  norm_num at hle this
  linarith

/-- On 3 × 3 orders of a square lattice of period 1 in vacuum at wavelength 1/2, fluxes exist for the sum of all orders. -/
theorem unit3_fluxes {l : TLattice} (h : TLattice.make (3, 3) (1, 0) (0, 1) (.float 1) (.float 1) = .ok l)
    (hb : l.b = ((2 * Real.pi, 0), (0, 2 * Real.pi))) (pout : TIdx l.shape → ℂ) :
    ∃ R T A, computeFluxes l (1 / 2) (Sum.elim (fun _ => 1) (fun _ => 0)) pout (0, 0) = .ok (R, T, A) := by
  obtain ⟨-, -, -, har, h1, h2⟩ := TLattice.make_fields h
  have hk := unit3_kz h hb
  rw [← h1] at hk
  unfold computeFluxes
  have hsum : ∑ k, (computeCurrents l (1 / 2) (Sum.elim (fun _ => 1) (fun _ => 0)) pout (0, 0)).1 k ≠ 0 := by
    choose r hr e using hk
    have : ∀ k, (computeCurrents l (1 / 2) (Sum.elim (fun _ => 1) (fun _ => 0)) pout (0, 0)).1 k =
        ((l.area / (2 * mu0c * (2 * Real.pi) / (1 / 2)) * r k * 2 : ℝ) : ℂ) := by
      intro k
      simp only [computeCurrents, e k, Complex.ofReal_im, abs_zero, TLattice.floatEps_pos.le, if_true, Sum.elim_inl]
      push_cast
      norm_num
    simp only [this]
    rw [← Complex.ofReal_sum, Complex.ofReal_ne_zero]
    apply ne_of_gt
    have hs : l.shape = (3, 3) := (TLattice.make_shape_iff h (by norm_num)).2 (Or.inl rfl)
    have : Nonempty (Fin (l.shape.1 * l.shape.2)) := ⟨⟨0, by rw [hs]; norm_num⟩⟩
    apply Finset.sum_pos _ Finset.univ_nonempty
    intro k _
    have := hr k
    have := mu0c_pos
    have := Real.pi_pos
    have : 0 < l.area := by rw [har]; norm_num [unitCellArea]
    positivity
  rcases hcc : computeCurrents l (1 / 2) (Sum.elim (fun _ => 1) (fun _ => 0)) pout (0, 0) with ⟨j1, j2, j3⟩
  rw [hcc] at hsum
  simp only at hsum ⊢
  rw [pyCheck_ok (by norm_num), ok_bind, pyCheck_ok hsum, ok_bind]
  exact ⟨_, _, _, rfl⟩

/-- Non-vacuity of C99: on 3 × 3 orders, a lossy disc and a lossy bar in a lossy host, of any positive depth and any
slicing.  The layer is solved, and the fluxes say that it absorbs. -/
example : ∃ (jv1 : ℝ → ℝ) (l : TLattice), BesselOne jv1 ∧
    TLattice.make (3, 3) (1, 0) (0, 1) (.float 1) (.float 1) = .ok l ∧ ∀ depth : ℝ, 0 < depth → ∀ k, ∃ S Sint X R T A,
    tmatScattering jv1 l [(.shape (.disc (1 / 4) (1 / 2) (1 / 5)), 4 + I), (.shape (.rectangle (1 / 2) 0 (3 / 4) 1), -9 + 2 * I),
      (.uniform, 7 + I)] (2 + I) (1 / 2) (0, 0) depth k = .ok S ∧ tmatInterface l (1 / 2) (0, 0) = .ok Sint ∧
    multS S Sint = .ok X ∧ computeFluxes l (1 / 2) (Sum.elim (fun _ => 1) (fun _ => 0))
      (X *ᵥ Sum.elim (fun _ => 1) (fun _ => 0)) (0, 0) = .ok (R, T, A) ∧ R + T < 1 ∧ 0 < A := by
  obtain ⟨jv1, hJ⟩ : ∃ jv1, BesselOne jv1 := ⟨_, fun _ => rfl⟩
  obtain ⟨l, h, hb⟩ := unit_tlattice (3, 3) rfl (.float 1) (.float 1)
  obtain ⟨-, -, -, har, h1, h2⟩ := TLattice.make_fields h
  have hs : l.shape = (3, 3) := (TLattice.make_shape_iff h (by norm_num)).2 (Or.inl rfl)
  have harea : l.area = 1 := by rw [har]; norm_num [unitCellArea]
  have hper : Periods l.b := hb ▸ unit_periods
  have hk := unit3_kz h hb
  rw [← h1] at hk
  have hz : (((0 : ℝ) : ℂ), ((0 : ℝ) : ℂ)) = ((0, 0) : ℂ × ℂ) := by simp
  have hk0 : ∀ k, flatT l.shape (l.kz l.epsI (1 / 2) (((0 : ℝ) : ℂ), ((0 : ℝ) : ℂ))) k ≠ 0 := by
    intro k
    obtain ⟨r, hr, e⟩ := hk k
    rw [hz, e]
    exact_mod_cast hr.ne'
  have hkr : ∀ k, (flatT l.shape (l.kz l.epsI (1 / 2) (0, 0)) k).im = 0 := by
    intro k
    obtain ⟨r, hr, e⟩ := hk k
    rw [e, Complex.ofReal_im]
  have hv1 : l.epsI.val = ((1 : ℝ) : ℂ) := by rw [h1]; rfl
  have hv2 : l.epsE.val = ((1 : ℝ) : ℂ) := by rw [h2]; rfl
  set isl : List (TShape × ℂ) := [(.shape (.disc (1 / 4) (1 / 2) (1 / 5)), 4 + I),
    (.shape (.rectangle (1 / 2) 0 (3 / 4) 1), -9 + 2 * I), (.uniform, 7 + I)] with hisl
  have hlossy : LossyIslands ((1, 0), (0, 1)) isl (2 + I) 1 (1 / 100) := by
    refine ⟨laid_example _ _, ⟨by simp, ?_⟩, ?_⟩
    · rw [one_div, inv_im, normSq_apply]; norm_num
    · intro d hd
      simp only [hisl, List.mem_cons, List.not_mem_nil, or_false] at hd
      rcases hd with rfl | rfl | rfl
      · refine ⟨by simp, ?_⟩
        rw [one_div, inv_im, normSq_apply]; norm_num
      · refine ⟨by simp, ?_⟩
        rw [one_div, inv_im, normSq_apply]; norm_num
      · refine ⟨by simp, ?_⟩
        rw [one_div, inv_im, normSq_apply]; norm_num
  have htol : l.tol isl (2 + I) id < 1 := by
    have e1 : ‖(-9 + 2 * I - (2 + I) : ℂ)‖ ≤ 12 := by
      have e1 : (-9 + 2 * I - (2 + I) : ℂ) = -11 + I := by ring
      rw [e1]
      refine (norm_add_le _ _).trans ?_
      rw [norm_neg, norm_I]; norm_num
    simp only [TLattice.tol, patternTol, tPattern, hisl, hs, harea, List.filterMap_cons, List.filterMap_nil, List.map_cons,
      List.map_nil, List.sum_cons, List.sum_nil, Shape.rectArea, id]
    norm_num
    linarith
  have htol' : l.tol isl (2 + I) (1 / ·) < 1 / 100 := by
    have e1 : ‖(1 / (-9 + 2 * I) - 1 / (2 + I) : ℂ)‖ ≤ 12 := by
      have n1 : ∀ z : ℂ, 1 ≤ |z.im| → ‖1 / z‖ ≤ 1 := fun z hz => by
        rw [norm_div, norm_one, div_le_one (by have := abs_im_le_norm z; linarith)]
        exact hz.trans (abs_im_le_norm z)
      have := norm_sub_le (1 / (-9 + 2 * I) : ℂ) (1 / (2 + I))
      have := n1 (-9 + 2 * I) (by simp)
      have := n1 (2 + I) (by simp)
      linarith
    simp only [TLattice.tol, patternTol, tPattern, hisl, hs, harea, List.filterMap_cons, List.filterMap_nil, List.map_cons,
      List.map_nil, List.sum_cons, List.sum_nil, Shape.rectArea]
    norm_num at e1 ⊢
    linarith
  refine ⟨jv1, l, hJ, h, fun depth hd k => ?_⟩
  obtain ⟨S, hS⟩ := C99_exists (a := 0) (b := 0) hJ h (Or.inl rfl) (by norm_num) hper hlossy htol htol' (wl := 1 / 2) (by norm_num)
    hv1 one_pos hk0 hd.le k
  obtain ⟨⟨U, hU⟩, V, hV⟩ := C44_exists (l := l) (wl := 1 / 2) (by norm_num) (by rw [hv1]; simp)
    (by rw [h1]; intro r hr; cases hr; norm_num) hk0
  obtain ⟨Sint, hint, hneut⟩ := C44_neutral (h2.trans h1.symm) hU hV
  obtain ⟨R, T, A, hfl⟩ := unit3_fluxes h hb (S *ᵥ Sum.elim (fun _ => 1) (fun _ => 0))
  have hpart := C99_lossy hJ h (Or.inl rfl) (by norm_num) hper hlossy htol htol' (by norm_num) hd hS hV
  rw [hz] at hS hint hV
  have hV2 : l.V l.epsE (1 / 2) (0, 0) = .ok V := by rw [h2.trans h1.symm]; exact hV
  have hf := (C99_fluxes hv1 one_pos hv2 one_pos (wl := 1 / 2) (by norm_num) (fun k => Or.inl (hkr k))
    (fun k => Or.inl (by rw [h2.trans h1.symm]; exact hkr k)) hV hV2 (fun k => Or.inl (hkr k)) (fun _ => rfl) hfl).2.2 hpart
  exact ⟨S, Sint, S, R, T, A, hS, hint, (hneut S).1, hfl, hf.1, hf.2⟩

end Khepri
