import Verif.Spec.TmatPassive
import Verif.Lemmas.TmatDevice
import Verif.Lemmas.Laid
import Verif.Props.Islands
import Mathlib.Analysis.Calculus.Deriv.MeanValue

/-!
Power lost in the layers of the T-matrix formulation.
-/

set_option linter.unusedSectionVars false

namespace Khepri

open Matrix Complex

section Flow
variable {g : Type} [Fintype g] [DecidableEq g]

theorem tpower_hasDeriv {v : g → ℝ × ℝ} {e ei : Matrix g g ℂ} {k0 : ℝ} {f : ℝ → (g ⊕ g) ⊕ (g ⊕ g) → ℂ}
    (h : ∀ z i, HasDerivAt (fun t => f t i) ((tsystem (fun k => ((v k).1, (v k).2)) e ei k0 *ᵥ f z) i) z) (z : ℝ) :
    let ex : g → ℂ := fun k => f z (.inl (.inl k))
    let ey : g → ℂ := fun k => f z (.inl (.inr k))
    let s : g → ℂ := fun k => (v k).1 * f z (.inr (.inr k)) - (v k).2 * f z (.inr (.inl k))
    HasDerivAt (fun z => TPower (f z))
      (mu0c / k0 * (star s ⬝ᵥ ei *ᵥ s).im - k0 / mu0c * ((star ex ⬝ᵥ e *ᵥ ex).im + (star ey ⬝ᵥ e *ᵥ ey).im)) z := by
  intro ex ey s
  have h1 := HasDerivAt.fun_sum (u := Finset.univ) fun (k : g) _ =>
    (Complex.reCLM.hasFDerivAt.comp_hasDerivAt z
      (((h z (.inl (.inl k))).mul (h z (.inr (.inr k))).star).sub ((h z (.inl (.inr k))).mul (h z (.inr (.inl k))).star)))
  have h2 := tpower_rate (v := v) (e := e) (ei := ei) (k0 := k0) (f z)
  refine HasDerivAt.congr_deriv h1 ?_
  exact h2

/-- The power does not grow where nothing amplifies. -/
theorem tpower_antitone {v : g → ℝ × ℝ} {e ei : Matrix g g ℂ} {k0 : ℝ} (hk : 0 < k0)
    (he : ∀ x, 0 ≤ (star x ⬝ᵥ e *ᵥ x).im) (hei : ∀ x, (star x ⬝ᵥ ei *ᵥ x).im ≤ 0)
    {f : ℝ → (g ⊕ g) ⊕ (g ⊕ g) → ℂ}
    (h : ∀ z i, HasDerivAt (fun t => f t i) ((tsystem (fun k => ((v k).1, (v k).2)) e ei k0 *ᵥ f z) i) z) :
    Antitone fun z => TPower (f z) := by
  have hm := mu0c_pos
  refine antitone_of_deriv_nonpos (fun z => (tpower_hasDeriv h z).differentiableAt) fun z => ?_
  rw [(tpower_hasDeriv h z).deriv]
  have h1 := mul_nonpos_of_nonneg_of_nonpos (div_pos hm hk).le (hei fun k => (v k).1 * f z (.inr (.inr k)) - (v k).2 * f z (.inr (.inl k)))
  have h2 := mul_nonneg (div_pos hk hm).le (add_nonneg (he fun k => f z (.inl (.inl k))) (he fun k => f z (.inl (.inr k))))
  linarith

/-- Where everything absorbs, a field that loses no power is 0. -/
theorem tpower_strict {v : g → ℝ × ℝ} {e ei : Matrix g g ℂ} {k0 : ℝ} (hk : 0 < k0)
    (he : ∀ x, x ≠ 0 → 0 < (star x ⬝ᵥ e *ᵥ x).im) (hei : ∀ x, x ≠ 0 → (star x ⬝ᵥ ei *ᵥ x).im < 0)
    {f : ℝ → (g ⊕ g) ⊕ (g ⊕ g) → ℂ}
    (h : ∀ z i, HasDerivAt (fun t => f t i) ((tsystem (fun k => ((v k).1, (v k).2)) e ei k0 *ᵥ f z) i) z)
    {a b : ℝ} (hab : a < b) (hle : TPower (f a) ≤ TPower (f b)) (z : ℝ) : f z = 0 := by
  have hm := mu0c_pos
  have he0 : ∀ x, 0 ≤ (star x ⬝ᵥ e *ᵥ x).im := fun x => by
    by_cases hx : x = 0
    · simp [hx]
    · exact (he x hx).le
  have hei0 : ∀ x, (star x ⬝ᵥ ei *ᵥ x).im ≤ 0 := fun x => by
    by_cases hx : x = 0
    · simp [hx]
    · exact (hei x hx).le
  have hanti := tpower_antitone hk he0 hei0 h
  have hconst : ∀ t ∈ Set.Ioo a b, TPower (f t) = TPower (f a) := fun t ht =>
    le_antisymm (hanti ht.1.le) (hle.trans (hanti ht.2.le))
  -- nothing is lost inside, so no field there
  have hzero : ∀ t ∈ Set.Ioo a b, (∀ k, f t (.inl (.inl k)) = 0) ∧ (∀ k, f t (.inl (.inr k)) = 0) ∧
      ∀ k, ((v k).1 : ℂ) * f t (.inr (.inr k)) - (v k).2 * f t (.inr (.inl k)) = 0 := by
    intro t ht
    have hd : HasDerivAt (fun z => TPower (f z)) 0 t := by
      refine (hasDerivAt_const t (TPower (f a))).congr_of_eventuallyEq ?_
      filter_upwards [Ioo_mem_nhds ht.1 ht.2] with s hs using hconst s hs
    have hu := hd.unique (tpower_hasDeriv h t)
    set ex : g → ℂ := fun k => f t (.inl (.inl k))
    set ey : g → ℂ := fun k => f t (.inl (.inr k))
    set s : g → ℂ := fun k => (v k).1 * f t (.inr (.inr k)) - (v k).2 * f t (.inr (.inl k))
    have p1 := div_pos hm hk
    have p2 := div_pos hk hm
    have q1 := hei0 s
    have q2 := he0 ex
    have q3 := he0 ey
    refine ⟨congrFun (?_ : ex = 0), congrFun (?_ : ey = 0), congrFun (?_ : s = 0)⟩
    · by_contra hne
      nlinarith [mul_pos p2 (he ex hne), mul_nonneg p2.le q3, mul_nonneg p1.le (neg_nonneg.2 q1)]
    · by_contra hne
      nlinarith [mul_pos p2 (he ey hne), mul_nonneg p2.le q2, mul_nonneg p1.le (neg_nonneg.2 q1)]
    · by_contra hne
      nlinarith [mul_pos p1 (neg_pos.2 (hei s hne)), mul_nonneg p2.le q2, mul_nonneg p2.le q3]
  obtain ⟨t, ht⟩ : ∃ t, t ∈ Set.Ioo a b := ⟨(a + b) / 2, by constructor <;> linarith⟩
  have hft : f t = 0 := by
    obtain ⟨z1, z2, z3⟩ := hzero t ht
    have hs0 : (ei *ᵥ fun j => ((v j).1 : ℂ) * f t (.inr (.inr j)) - (v j).2 * f t (.inr (.inl j))) = 0 := by
      rw [show (fun j => ((v j).1 : ℂ) * f t (.inr (.inr j)) - (v j).2 * f t (.inr (.inl j))) = 0 from funext z3, mulVec_zero]
    have hc : (I * mu0c * k0 : ℂ) ≠ 0 := by
      have : (mu0c : ℂ) ≠ 0 := by exact_mod_cast hm.ne'
      have : (k0 : ℂ) ≠ 0 := by exact_mod_cast hk.ne'
      simp [*]
    have hder : ∀ i, (∀ s ∈ Set.Ioo a b, f s i = 0) →
        (tsystem (fun k => (((v k).1 : ℂ), ((v k).2 : ℂ))) e ei k0 *ᵥ f t) i = 0 := by
      intro i hi
      refine (h t i).unique ((hasDerivAt_const t (0 : ℂ)).congr_of_eventuallyEq ?_)
      filter_upwards [Ioo_mem_nhds ht.1 ht.2] with s hs using hi s hs
    funext i
    rcases i with (k | k) | (k | k)
    · exact z1 k
    · exact z2 k
    · have := hder (.inl (.inr k)) fun s hs => (hzero s hs).2.1 k
      rw [(tsystem_mulVec _ e ei k0 (f t) k).2.1] at this
      simp only [hs0, Pi.zero_apply, mul_zero, sub_zero] at this
      rcases mul_eq_zero.1 this with h' | h'
      · exact absurd (neg_eq_zero.1 h') hc
      · exact h'
    · have := hder (.inl (.inl k)) fun s hs => (hzero s hs).1 k
      rw [(tsystem_mulVec _ e ei k0 (f t) k).1] at this
      simp only [hs0, Pi.zero_apply, mul_zero, sub_zero] at this
      rcases mul_eq_zero.1 this with h' | h'
      · exact absurd h' hc
      · exact h'
  have h0 : f 0 = 0 := by
    rw [flow_joins.1 ⟨f, h, rfl, hft⟩, mulVec_zero]
  rw [flow_unique h z, h0, mulVec_zero]

end Flow

namespace TLattice
variable {jv1 : ℝ → ℝ} {pw : ℕ × ℕ} {a1 a2 : R2} {ei ee : PyNum} {l : TLattice} {wl a b : ℝ}
  {islands : List (TShape × ℂ)} {host : ℂ}

theorem ord_wave (h : TLattice.make pw a1 a2 ei ee = .ok l) (hs : l.shape = pw) (k : Fin (l.shape.1 * l.shape.2)) :
    (flatT l.shape l.gx k, flatT l.shape l.gy k) = latticeVec l.b (l.ord k) := by
  obtain ⟨ha, hb⟩ := make_gx h ((k : ℕ) % l.shape.1) ((k : ℕ) / l.shape.1)
  simp only [flatT, ha, hb, ord, latticeVec, Int.cast_sub, Int.cast_natCast]
  have e1 : l.shape.1 / 2 = pw.1 / 2 := by rw [hs]
  have e2 : l.shape.2 / 2 = pw.2 / 2 := by rw [hs]
  rw [e1, e2]

theorem ord_injective (l : TLattice) : Function.Injective fun k : Fin (l.shape.1 * l.shape.2) => l.ord k := by
  intro i j hij
  simp only [ord, Prod.mk.injEq, sub_left_inj, Nat.cast_inj] at hij
  rw [Fin.ext_iff, ← Nat.div_add_mod i l.shape.1, ← Nat.div_add_mod j l.shape.1, hij.1, hij.2]

/-- The coupling of orders, in terms of the pattern. -/
theorem coupling_eq (h : TLattice.make pw a1 a2 ei ee = .ok l) (hs : l.shape = pw) (f : ℂ → ℂ)
    (i j : Fin (l.shape.1 * l.shape.2)) :
    l.coupling jv1 islands host f i j = islandCoef jv1 l.b l.area (tPattern f islands) (f host) (l.ord i - l.ord j) := by
  have hw : (flatT l.shape l.gx i - flatT l.shape l.gx j, flatT l.shape l.gy i - flatT l.shape l.gy j) =
      latticeVec l.b (l.ord i - l.ord j) := by
    have e1 := ord_wave h hs i
    have e2 := ord_wave h hs j
    simp only [latticeVec, Prod.mk.injEq] at e1 e2 ⊢
    rw [e1.1, e1.2, e2.1, e2.2]
    simp only [Prod.fst_sub, Prod.snd_sub, Int.cast_sub]
    constructor <;> ring
  have h0 : (i = j) ↔ l.ord i - l.ord j = (0, 0) := by
    rw [← (ord_injective l).eq_iff, ← sub_eq_zero]; rfl
  simp only [coupling, of_apply, islandCoef, hw, h0]
  congr 1
  induction islands with
  | nil => rfl
  | cons d t ih =>
    obtain ⟨sh, eps⟩ := d
    cases sh with
    | uniform => simpa [tPattern, TShape.coef] using ih
    | shape s =>
      rw [List.map_cons, List.sum_cons, ih, show tPattern f ((.shape s, eps) :: t) = ⟨s, f eps⟩ :: tPattern f t from rfl,
        List.map_cons, List.sum_cons]
      rfl

theorem laid_map {lat : R2 × R2} (f : ℂ → ℂ) (hl : Laid lat (tPattern id islands)) : Laid lat (tPattern f islands) := by
  have e : tPattern f islands = (tPattern id islands).map fun s => ⟨s.shape, f s.eps⟩ := by
    simp only [tPattern, List.map_filterMap]
    congr 1
    funext d
    obtain ⟨sh, eps⟩ := d
    cases sh <;> rfl
  rw [e]
  refine ⟨?_, ?_, ?_⟩
  · simpa using hl.proper
  · obtain ⟨o, ho⟩ := hl.cell
    refine ⟨o, fun s hs => ?_⟩
    obtain ⟨s', hs', rfl⟩ := List.mem_map.1 hs
    exact ho s' hs'
  · rw [List.pairwise_map]
    exact hl.apart

/-- The quadratic form of the coupling lies in the half planes of the values, up to the accuracy of the transforms. -/
theorem coupling_range (hJ : BesselOne jv1) (h : TLattice.make pw a1 a2 ei ee = .ok l) (hs : l.shape = pw)
    (hb : Periods l.b) (hl : Laid (a1, a2) (tPattern id islands)) (f : ℂ → ℂ) {w : ℂ} (hw : ‖w‖ = 1) {δ : ℝ}
    (hh : δ ≤ (w * f host).re) (hi : ∀ d ∈ islands, δ ≤ (w * f d.2).re) (u : Fin (l.shape.1 * l.shape.2) → ℂ) :
    (δ - l.shape.1 * l.shape.2 * patternTol (tPattern f islands) (f host) l.area) * ∑ i, ‖u i‖ ^ 2 ≤
      (w * (star u ⬝ᵥ l.coupling jv1 islands host f *ᵥ u)).re := by
  obtain ⟨-, -, hrec, harea, -, -⟩ := make_fields h
  have hl' := laid_map f hl
  have hi' : ∀ s ∈ tPattern f islands, δ ≤ (w * s.eps).re := by
    intro s hs
    obtain ⟨⟨sh, eps⟩, hd, he⟩ := List.mem_filterMap.1 hs
    cases sh with
    | uniform => cases he
    | shape s' => cases he; exact hi _ hd
  have h1 := pattern_range (lat := (a1, a2)) hrec hl' hh hi' (ord_injective l) u
  have hnear : ∀ r c, ‖l.coupling jv1 islands host f r c -
      patternCoef (tPattern f islands) (f host) l.b l.area (l.ord r - l.ord c)‖ ≤ patternTol (tPattern f islands) (f host) l.area := by
    intro r c
    rw [coupling_eq h hs]
    exact islandCoef_near hJ hb hl'.proper _ _
  have h2 := quad_near hnear u
  rw [harea] at h2 ⊢
  simp only [Fintype.card_fin, Nat.cast_mul] at h2
  set q := star u ⬝ᵥ l.coupling jv1 islands host f *ᵥ u
  set q0 := ∑ r, ∑ c, star (u r) * u c * patternCoef (tPattern f islands) (f host) l.b (unitCellArea a1 a2) (l.ord r - l.ord c)
  have h3 : (w * q).re = (w * q0).re + (w * (q - q0)).re := by rw [← add_re]; congr 1; ring
  have h4 : -‖q - q0‖ ≤ (w * (q - q0)).re := by
    have := abs_re_le_norm (w * (q - q0))
    rw [norm_mul, hw, one_mul] at this
    exact (abs_le.1 this).1
  rw [h3]
  linarith

/-- What the media of a layer absorb. -/
theorem coupling_im (hJ : BesselOne jv1) (h : TLattice.make pw a1 a2 ei ee = .ok l) (hs : l.shape = pw)
    (hb : Periods l.b) {δ δ' : ℝ} (hl : LossyIslands (a1, a2) islands host δ δ') (u : Fin (l.shape.1 * l.shape.2) → ℂ) :
    (δ - l.shape.1 * l.shape.2 * patternTol (tPattern id islands) host l.area) * ∑ i, ‖u i‖ ^ 2 ≤
      (star u ⬝ᵥ l.coupling jv1 islands host id *ᵥ u).im ∧
    (δ' - l.shape.1 * l.shape.2 * patternTol (tPattern (1 / ·) islands) (1 / host) l.area) * ∑ i, ‖u i‖ ^ 2 ≤
      -(star u ⬝ᵥ l.coupling jv1 islands host (1 / ·) *ᵥ u).im := by
  constructor
  · have := coupling_range (w := -I) hJ h hs hb hl.laid id (by simp) (host := host) (δ := δ) (by simpa using hl.host.1)
      (fun d hd => by simpa using (hl.islands d hd).1) u
    simpa using this
  · have := coupling_range (w := I) hJ h hs hb hl.laid (1 / ·) (by simp) (host := host) (δ := δ')
      (by simpa using le_neg.1 hl.host.2) (fun d hd => by simpa using le_neg.1 (hl.islands d hd).2) u
    simpa using this

theorem wave_real (l : TLattice) (a b : ℝ) : (fun k => (((a + flatT l.shape l.gx k : ℝ) : ℂ), ((b + flatT l.shape l.gy k : ℝ) : ℂ))) =
    l.wave (↑a, ↑b) := by
  funext k; rw [wave]; push_cast; rfl

/-- A layer without gain does not amplify. -/
theorem layer_passive (h : TLattice.make pw a1 a2 ei ee = .ok l) (hs : l.shape = pw) (hw : 0 < wl)
    (he : ∀ x, 0 ≤ (star x ⬝ᵥ l.coupling jv1 islands host id *ᵥ x).im)
    (hei : ∀ x, (star x ⬝ᵥ l.coupling jv1 islands host (1 / ·) *ᵥ x).im ≤ 0)
    {depth : ℝ} (hd : 0 ≤ depth) {k : ℕ} {S V : Matrix (TIdx l.shape) (TIdx l.shape) ℂ}
    (hS : tmatScattering jv1 l islands host wl (↑a, ↑b) depth k = .ok S) (hV : l.V l.epsI wl (↑a, ↑b) = .ok V) :
    TPassive V V S := by
  intro u v huv
  obtain ⟨f, hf, hu, hv⟩ := (layer_relates h hs hS hV u v).1 huv
  rw [← hu, ← hv]
  refine tpower_antitone (v := fun k => (a + flatT l.shape l.gx k, b + flatT l.shape l.gy k)) (k0 := 2 * Real.pi / wl)
    (by positivity) he hei ?_ hd
  intro z i
  simp only [wave_real]
  exact hf z i

theorem power_sign {r : ℝ} (he : l.epsI.val = r) (hr : 0 < r) (hw : 0 < wl) {V : Matrix (TIdx l.shape) (TIdx l.shape) ℂ}
    (hV : l.V l.epsI wl (↑a, ↑b) = .ok V) (p : Fin (l.shape.1 * l.shape.2) ⊕ Fin (l.shape.1 * l.shape.2) → ℂ) :
    0 ≤ TPower (V *ᵥ Sum.elim p 0) ∧ TPower (V *ᵥ Sum.elim 0 p) ≤ 0 := by
  have hc : 0 < wl / (2 * Real.pi * mu0c) := div_pos hw (by have := mu0c_pos; positivity)
  have hre := fun k h => (computeKz_branch (l.gx ((k : ℕ) % l.shape.1) ((k : ℕ) / l.shape.1))
    (l.gy ((k : ℕ) % l.shape.1) ((k : ℕ) / l.shape.1)) l.epsI.val wl (↑a, ↑b)).2 h
  constructor
  · rw [power_V he hr hV fun k => .inr (.inr ⟨rfl, rfl⟩)]
    refine mul_nonneg hc.le (Finset.sum_nonneg fun k _ => ?_)
    split_ifs with h
    · refine mul_nonneg (hre k h) ?_
      simp only [Sum.elim_inl, Sum.elim_inr, Pi.zero_apply, norm_zero]
      have h1 := sq_nonneg ‖p (.inl k)‖
      have h2 := sq_nonneg ‖p (.inr k)‖
      linarith
    · exact le_rfl
  · rw [power_V he hr hV fun k => .inr (.inl ⟨rfl, rfl⟩)]
    refine mul_nonpos_of_nonneg_of_nonpos hc.le (Finset.sum_nonpos fun k _ => ?_)
    split_ifs with h
    · refine mul_nonpos_of_nonneg_of_nonpos (hre k h) ?_
      simp only [Sum.elim_inl, Sum.elim_inr, Pi.zero_apply, norm_zero]
      have h1 := sq_nonneg ‖p (.inl k)‖
      have h2 := sq_nonneg ‖p (.inr k)‖
      linarith
    · exact le_rfl

theorem lossy_det {r : ℝ} (he : l.epsI.val = r) (hr : 0 < r) (hw : 0 < wl) {U V : Matrix (TIdx l.shape) (TIdx l.shape) ℂ}
    (hU : l.U wl (↑a, ↑b) = .ok U) (hV : l.V l.epsI wl (↑a, ↑b) = .ok V)
    {e ei : Matrix (Fin (l.shape.1 * l.shape.2)) (Fin (l.shape.1 * l.shape.2)) ℂ}
    (h1 : ∀ x, x ≠ 0 → 0 < (star x ⬝ᵥ e *ᵥ x).im) (h2 : ∀ x, x ≠ 0 → (star x ⬝ᵥ ei *ᵥ x).im < 0)
    {depth k0 : ℝ} (hd : 0 ≤ depth) (hk : 0 < k0) :
    (U * NormedSpace.exp (-((depth : ℂ) • tsystem (l.wave (↑a, ↑b)) e ei k0)) * V).toBlocks₁₁.det ≠ 0 := by
  rcases hd.eq_or_lt with rfl | hd
  · have : U * NormedSpace.exp (-(((0 : ℝ) : ℂ) • tsystem (l.wave (↑a, ↑b)) e ei k0)) * V = 1 := by
      rw [ofReal_zero, zero_smul, neg_zero, NormedSpace.exp_zero, Matrix.mul_one, U_mul_Vi hU hV]
    rw [this, ← fromBlocks_one, toBlocks_fromBlocks₁₁, det_one]
    exact one_ne_zero
  intro hdet
  obtain ⟨v, hv0, hv⟩ := Matrix.exists_mulVec_eq_zero_iff.2 hdet
  set T := U * NormedSpace.exp (-((depth : ℂ) • tsystem (l.wave (↑a, ↑b)) e ei k0)) * V with hT
  have hrel := (relates_iff (E := NormedSpace.exp (-((depth : ℂ) • tsystem (l.wave (↑a, ↑b)) e ei k0))) (U_mul_Vi hU hV)
    (Vi_mul_U hU hV) (T *ᵥ Sum.elim v 0) (Sum.elim v 0)).1 rfl
  obtain ⟨f, hf, hf0, hfd⟩ := flow_joins.2 hrel
  have hz := tpower_strict (v := fun k => (a + flatT l.shape l.gx k, b + flatT l.shape l.gy k)) (k0 := k0) hk h1 h2 (f := f)
    (by intro z i; simp only [wave_real]; exact hf z i) hd (by
      rw [hf0, hfd, blocks_mulVec, hv, mulVec_zero, mulVec_zero, add_zero, add_zero]
      exact (power_sign he hr hw hV _).2.trans (power_sign he hr hw hV _).1) depth
  rw [hfd] at hz
  have := congrArg (U *ᵥ ·) hz
  rw [mulVec_mulVec, U_mul_Vi hU hV, one_mulVec, mulVec_zero] at this
  exact hv0 (funext fun i => congrFun this (.inl i))

/-- A lossy layer always has an S-matrix. -/
theorem lossy_exists (h : TLattice.make pw a1 a2 ei ee = .ok l) (hs : l.shape = pw) (h0 : 0 < pw.1 ∧ 0 < pw.2)
    (hh : host ≠ 0) (hi : ∀ d ∈ islands, d.2 ≠ 0)
    (h1 : ∀ x, x ≠ 0 → 0 < (star x ⬝ᵥ l.coupling jv1 islands host id *ᵥ x).im)
    (h2 : ∀ x, x ≠ 0 → (star x ⬝ᵥ l.coupling jv1 islands host (1 / ·) *ᵥ x).im < 0)
    (ht : ∀ d ∈ islands, ∃ t, l.transform jv1 d.1 = .ok t) (hw : 0 < wl) {r : ℝ} (he : l.epsI.val = r) (hr : 0 < r)
    (hk0 : ∀ k, flatT l.shape (l.kz l.epsI wl (↑a, ↑b)) k ≠ 0) {depth : ℝ} (hd : 0 ≤ depth) (k : ℕ) :
    ∃ S, tmatScattering jv1 l islands host wl (↑a, ↑b) depth k = .ok S := by
  have he0 : l.epsI.val ≠ 0 := by rw [he]; exact_mod_cast hr.ne'
  have hroot : Rooted l.epsI := by
    cases hE : l.epsI with
    | float x =>
      rw [hE] at he
      have : x = r := by simpa [PyNum.val] using he
      simp only [Rooted]; linarith
    | complex z => trivial
  obtain ⟨T, hT⟩ := slice_exists (jv1 := jv1) h hs h0 hh hi ht hw.ne' he0 hroot hk0 depth k
  obtain ⟨U, V, hU, hV, -, -, -, rfl⟩ := slice_ok h hs hT
  have hdet := fun (d : ℝ) (hd : 0 ≤ d) => lossy_det he hr hw hU hV h1 h2 (depth := d) (k0 := 2 * Real.pi / wl) hd (by positivity)
  have hS := matrixS_eq_ok.2 ⟨hdet (depth / 2 ^ k) (by positivity), rfl⟩
  have hD := doubling_eq (k := k) (Vi_mul_U hU hV) hS fun j _ => by
    have := hdet (2 ^ j * (depth / 2 ^ k)) (by positivity)
    push_cast at this ⊢
    exact this
  rw [tmatScattering, hT, ok_bind, hS, ok_bind, hD]
  have := hdet (2 ^ k * (depth / 2 ^ k)) (by positivity)
  push_cast at this ⊢
  exact ⟨_, matrixS_eq_ok.2 ⟨this, rfl⟩⟩

theorem cur_sum (eps : PyNum) (kp : ℂ × ℂ) (p : TIdx l.shape → ℂ) :
    (∑ k, if (flatT l.shape (l.kz eps wl kp) k).im = 0 then (flatT l.shape (l.kz eps wl kp) k).re *
      (‖p (.inl (.inl k))‖ ^ 2 + ‖p (.inl (.inr k))‖ ^ 2 - (‖p (.inr (.inl k))‖ ^ 2 + ‖p (.inr (.inr k))‖ ^ 2)) else 0) =
    l.cur eps wl kp (fun k => ‖p (.inl (.inl k))‖ ^ 2 + ‖p (.inl (.inr k))‖ ^ 2) -
      l.cur eps wl kp (fun k => ‖p (.inr (.inl k))‖ ^ 2 + ‖p (.inr (.inr k))‖ ^ 2) := by
  rw [cur, cur, ← Finset.sum_sub_distrib]
  refine Finset.sum_congr rfl fun k _ => ?_
  split_ifs <;> ring

/-- The fluxes of the code share out the power that enters. -/
theorem fluxes_power {ri re : ℝ} (hi : l.epsI.val = ri) (hri : 0 < ri) (he : l.epsE.val = re) (hre : 0 < re) (hw : 0 < wl)
    (hI : l.NonGrazing l.epsI wl (0, 0)) (hE : l.NonGrazing l.epsE wl (0, 0))
    {Vi Ve : Matrix (TIdx l.shape) (TIdx l.shape) ℂ} (hVi : l.V l.epsI wl (0, 0) = .ok Vi) (hVe : l.V l.epsE wl (0, 0) = .ok Ve)
    {pin pout : TIdx l.shape → ℂ} (hpin : ∀ k, (flatT l.shape (l.kz l.epsI wl (0, 0)) k).im = 0 ∨
      (pin (.inl (.inl k)) = 0 ∧ pin (.inl (.inr k)) = 0))
    {kp : ℂ × ℂ} {R T A : ℝ} (h : computeFluxes l wl pin pout kp = .ok (R, T, A)) :
    0 < TPower (Vi *ᵥ Sum.elim (pin ∘ Sum.inl) 0) ∧ R + T + A = 1 ∧
    TPower (Vi *ᵥ Sum.elim (pin ∘ Sum.inl) (pout ∘ Sum.inr)) - TPower (Ve *ᵥ Sum.elim (pout ∘ Sum.inl) 0) =
      A * TPower (Vi *ᵥ Sum.elim (pin ∘ Sum.inl) 0) := by
  obtain ⟨h0, hR, hT, hA⟩ := fluxes_eq h
  obtain ⟨c1, c2, c3⟩ := currents_eq (pin := pin) (psca := pout) (0, 0) hI hE (by rw [he]; simp)
  have z0 : (((0 : ℝ) : ℂ), ((0 : ℝ) : ℂ)) = (0, 0) := by simp
  have p0 := power_V (a := 0) (b := 0) (p := Sum.elim (pin ∘ Sum.inl) 0) hi hri (by rw [z0]; exact hVi) (fun k => .inr (.inr ⟨rfl, rfl⟩))
  have p1 := power_V (a := 0) (b := 0) (p := Sum.elim (pin ∘ Sum.inl) (pout ∘ Sum.inr)) hi hri (by rw [z0]; exact hVi) (by
    rw [z0]
    intro k
    rcases hpin k with h | h
    · exact .inl h
    · exact .inr (.inl h))
  have p2 := power_V (a := 0) (b := 0) (p := Sum.elim (pout ∘ Sum.inl) 0) he hre (by rw [z0]; exact hVe) (fun k => .inr (.inr ⟨rfl, rfl⟩))
  rw [z0] at p0 p1 p2
  rw [p0, p1, p2]
  have hc : 0 < wl / (2 * Real.pi * mu0c) := div_pos hw (by have := mu0c_pos; positivity)
  set c := wl / (2 * Real.pi * mu0c)
  set X := l.cur l.epsI wl (0, 0) fun k => ‖pin (.inl (.inl k))‖ ^ 2 + ‖pin (.inl (.inr k))‖ ^ 2 with hX
  set Y := l.cur l.epsI wl (0, 0) fun k => ‖pout (.inr (.inl k))‖ ^ 2 + ‖pout (.inr (.inr k))‖ ^ 2 with hY
  set Z := l.cur l.epsE wl (0, 0) fun k => ‖pout (.inl (.inl k))‖ ^ 2 + ‖pout (.inl (.inr k))‖ ^ 2 with hZ
  have c0 : ∀ eps : PyNum, l.cur eps wl (0, 0) (fun _ => 0) = 0 := fun eps => by simp [cur]
  have e0 := cur_sum (l := l) (wl := wl) l.epsI (0, 0) (Sum.elim (pin ∘ Sum.inl) 0)
  have e1 := cur_sum (l := l) (wl := wl) l.epsI (0, 0) (Sum.elim (pin ∘ Sum.inl) (pout ∘ Sum.inr))
  have e2 := cur_sum (l := l) (wl := wl) l.epsE (0, 0) (Sum.elim (pout ∘ Sum.inl) 0)
  simp only [Sum.elim_inl, Sum.elim_inr, Function.comp, Pi.zero_apply, norm_zero, ne_eq, OfNat.ofNat_ne_zero,
    not_false_eq_true, zero_pow, add_zero, c0, sub_zero] at e0 e1 e2
  simp only [Sum.elim_inl, Sum.elim_inr, Function.comp, Pi.zero_apply, norm_zero, ne_eq, OfNat.ofNat_ne_zero,
    not_false_eq_true, zero_pow, add_zero, sub_zero]
  rw [e0, e1, e2]
  have hX0 : 0 ≤ X := cur_nonneg _ _ _ _ fun k => by positivity
  have hY0 : 0 ≤ Y := cur_nonneg _ _ _ _ fun k => by positivity
  have hZ0 : 0 ≤ Z := cur_nonneg _ _ _ _ fun k => by positivity
  rw [c1] at h0
  have hq : ((l.area / (2 * mu0c * (2 * Real.pi) / wl) : ℝ) : ℂ) ≠ 0 := left_ne_zero_of_mul h0
  have hXn : X ≠ 0 := by exact_mod_cast right_ne_zero_of_mul h0
  have hXp : 0 < X := lt_of_le_of_ne hX0 (Ne.symm hXn)
  have hR' : R = Y / X := by
    rw [hR, c1, c2, mul_div_mul_left _ _ hq, norm_div, norm_real, norm_real, Real.norm_of_nonneg hY0, Real.norm_of_nonneg hX0]
  have hT' : T = Z / X := by
    rw [hT, c1, c3, mul_div_mul_left _ _ hq, norm_div, norm_real, norm_real, Real.norm_of_nonneg hZ0, Real.norm_of_nonneg hX0]
  refine ⟨mul_pos hc hXp, by rw [hA]; ring, ?_⟩
  rw [hA, hR', hT']
  field_simp
  ring

theorem sum_sq_pos {n : Type} [Fintype n] {u : n → ℂ} (hu : u ≠ 0) : 0 < ∑ i, ‖u i‖ ^ 2 := by
  obtain ⟨i, hi⟩ := Function.ne_iff.1 hu
  exact Finset.sum_pos' (fun i _ => by positivity) ⟨i, Finset.mem_univ i, by have := norm_pos_iff.2 hi; positivity⟩

theorem coupling_strict (hJ : BesselOne jv1) (h : TLattice.make pw a1 a2 ei ee = .ok l) (hs : l.shape = pw)
    (hb : Periods l.b) {δ δ' : ℝ} (hl : LossyIslands (a1, a2) islands host δ δ')
    (hδ : l.shape.1 * l.shape.2 * patternTol (tPattern id islands) (id host) l.area < δ)
    (hδ' : l.shape.1 * l.shape.2 * patternTol (tPattern (1 / ·) islands) (1 / host) l.area < δ') :
    (∀ x, x ≠ 0 → 0 < (star x ⬝ᵥ l.coupling jv1 islands host id *ᵥ x).im) ∧
    ∀ x, x ≠ 0 → (star x ⬝ᵥ l.coupling jv1 islands host (1 / ·) *ᵥ x).im < 0 := by
  refine ⟨fun x hx => ?_, fun x hx => ?_⟩
  · exact (mul_pos (sub_pos.2 hδ) (sum_sq_pos hx)).trans_le (coupling_im hJ h hs hb hl x).1
  · exact neg_pos.1 ((mul_pos (sub_pos.2 hδ') (sum_sq_pos hx)).trans_le (coupling_im hJ h hs hb hl x).2)

theorem tol_nonneg (l : TLattice) (f : ℂ → ℂ) :
    0 ≤ l.shape.1 * l.shape.2 * patternTol (tPattern f islands) (f host) l.area := by
  refine mul_nonneg (by positivity) (div_nonneg (List.sum_nonneg fun x hx => ?_) (by positivity))
  obtain ⟨s, -, rfl⟩ := List.mem_map.1 hx
  positivity

/-- Proper islands have transforms. -/
theorem transforms (hJ : BesselOne jv1) (h : TLattice.make pw a1 a2 ei ee = .ok l) (hb : Periods l.b) {lat : R2 × R2}
    (hl : Laid lat (tPattern id islands)) : ∀ d ∈ islands, ∃ t, l.transform jv1 d.1 = .ok t := by
  rintro ⟨sh, eps⟩ hd
  cases sh with
  | uniform => exact ⟨_, rfl⟩
  | shape s =>
    have hp : s.Proper := hl.proper ⟨s, eps⟩ (List.mem_filterMap.2 ⟨_, hd, rfl⟩)
    have key : ∀ (i : Fin l.q.1) (j : Fin l.q.2), ∃ t, transformShape jv1 s (l.Gx i j, l.Gy i j) l.area = .ok t := by
      intro i j
      obtain ⟨e1, e2⟩ := make_Gx h i j
      have hc : ClearOf (l.Gx i j, l.Gy i j) := by
        have := hb ((i : ℤ) - (2 * (pw.1 / 2) : ℕ), (j : ℤ) - (2 * (pw.2 / 2) : ℕ))
        rw [e1, e2]
        generalize 2 * (pw.1 / 2) = m at this ⊢
        generalize 2 * (pw.2 / 2) = m' at this ⊢
        simp only [Int.cast_sub, Int.cast_natCast] at this
        simpa only [mul_comm] using this
      obtain ⟨-, -, t, ht, -⟩ := shape_transform hJ ⟨s, eps⟩ hp hc l.area
      exact ⟨t, ht⟩
    choose t ht using key
    exact ⟨t, pyFinM_eq_ok.2 fun i => pyFinM_eq_ok.2 fun j => ht i j⟩

/-- A lossy layer absorbs whatever reaches it. -/
theorem layer_lossy (h : TLattice.make pw a1 a2 ei ee = .ok l) (hs : l.shape = pw) (hw : 0 < wl)
    (he : ∀ x, x ≠ 0 → 0 < (star x ⬝ᵥ l.coupling jv1 islands host id *ᵥ x).im)
    (hei : ∀ x, x ≠ 0 → (star x ⬝ᵥ l.coupling jv1 islands host (1 / ·) *ᵥ x).im < 0)
    {depth : ℝ} (hd : 0 < depth) {k : ℕ} {S V : Matrix (TIdx l.shape) (TIdx l.shape) ℂ}
    (hS : tmatScattering jv1 l islands host wl (↑a, ↑b) depth k = .ok S) (hV : l.V l.epsI wl (↑a, ↑b) = .ok V)
    (u v : TIdx l.shape → ℂ) (huv : TScatters S u v) (hu0 : u ≠ 0) : TPower (V *ᵥ v) < TPower (V *ᵥ u) := by
  obtain ⟨f, hf, hu, hv⟩ := (layer_relates h hs hS hV u v).1 huv
  obtain ⟨U, V', hU, hV', -⟩ := layer_S h hs hS
  rw [hV] at hV'
  cases hV'
  by_contra hn
  rw [← hu, ← hv, not_lt] at hn
  have hz := tpower_strict (v := fun k => (a + flatT l.shape l.gx k, b + flatT l.shape l.gy k)) (k0 := 2 * Real.pi / wl)
    (by positivity) he hei (f := f) (by intro z i; simp only [wave_real]; exact hf z i) hd hn 0
  rw [hu] at hz
  have := congrArg (U *ᵥ ·) hz
  rw [mulVec_mulVec, U_mul_Vi hU hV, one_mulVec, mulVec_zero] at this
  exact hu0 this

theorem transfer_continuous {n : Type} [Fintype n] [DecidableEq n] (U V A : Matrix (n ⊕ n) (n ⊕ n) ℂ) :
    Continuous fun d : ℝ => (U * NormedSpace.exp (-((d : ℂ) • A)) * V).toBlocks₁₁.det := by
  have hexp : ∀ i j, Continuous fun d : ℝ => NormedSpace.exp (-((d : ℂ) • A)) i j := by
    intro i j
    refine continuous_iff_continuousAt.2 fun t => ?_
    have := (hasDerivAt_exp_mulVec (-A) (Pi.single j 1) t i).continuousAt
    simp only [mulVec_single_one, col_apply, smul_neg] at this
    exact this
  refine Continuous.matrix_det (continuous_matrix fun i j => ?_)
  show Continuous fun d : ℝ => (U * NormedSpace.exp (-((d : ℂ) • A)) * V) (.inl i) (.inl j)
  simp only [Matrix.mul_apply]
  exact continuous_finsetSum _ fun x _ => (continuous_finsetSum _ fun y _ => continuous_const.mul (hexp y x)).mul continuous_const

/-- Thin layers have S-matrices. -/
theorem thin_exists (h : TLattice.make pw a1 a2 ei ee = .ok l) (hs : l.shape = pw) (h0 : 0 < pw.1 ∧ 0 < pw.2)
    (hh : host ≠ 0) (hi : ∀ d ∈ islands, d.2 ≠ 0)
    (ht : ∀ d ∈ islands, ∃ t, l.transform jv1 d.1 = .ok t) (hw : wl ≠ 0) {r : ℝ} (he : l.epsI.val = r) (hr : 0 < r)
    (hk0 : ∀ k, flatT l.shape (l.kz l.epsI wl (↑a, ↑b)) k ≠ 0) :
    ∃ d : ℝ, 0 < d ∧ ∀ depth : ℝ, |depth| < d → ∀ k, ∃ S, tmatScattering jv1 l islands host wl (↑a, ↑b) depth k = .ok S := by
  have he0 : l.epsI.val ≠ 0 := by rw [he]; exact_mod_cast hr.ne'
  have hroot : Rooted l.epsI := by
    cases hE : l.epsI with
    | float x =>
      rw [hE] at he
      have : x = r := by simpa [PyNum.val] using he
      simp only [Rooted]; linarith
    | complex z => trivial
  obtain ⟨T, hT⟩ := slice_exists (jv1 := jv1) h hs h0 hh hi ht hw he0 hroot hk0 0 0
  obtain ⟨U, V, hU, hV, -⟩ := slice_ok h hs hT
  set A := tsystem (l.wave (↑a, ↑b)) (l.coupling jv1 islands host id) (l.coupling jv1 islands host (1 / ·))
    ((2 * Real.pi / wl : ℝ) : ℂ) with hA
  let F : ℝ → ℂ := fun d => (U * NormedSpace.exp (-((d : ℂ) • A)) * V).toBlocks₁₁.det
  have hF : Continuous F := transfer_continuous U V A
  have hF0 : F 0 ≠ 0 := by
    have : U * NormedSpace.exp (-(((0 : ℝ) : ℂ) • A)) * V = 1 := by
      rw [ofReal_zero, zero_smul, neg_zero, NormedSpace.exp_zero, Matrix.mul_one, U_mul_Vi hU hV]
    simp only [F, this]
    rw [← fromBlocks_one, toBlocks_fromBlocks₁₁, det_one]
    exact one_ne_zero
  obtain ⟨d, hd0, hd⟩ := Metric.eventually_nhds_iff.1 (hF.continuousAt.eventually_ne hF0)
  refine ⟨d, hd0, fun depth hdep k => ?_⟩
  obtain ⟨T, hT⟩ := slice_exists (jv1 := jv1) h hs h0 hh hi ht hw he0 hroot hk0 depth k
  obtain ⟨U', V', hU', hV', -, -, -, rfl⟩ := slice_ok h hs hT
  rw [hU] at hU'
  cases hU'
  rw [hV] at hV'
  cases hV'
  have hdet : ∀ j ≤ k, F (2 ^ j * (depth / 2 ^ k)) ≠ 0 := by
    intro j hj
    refine hd ?_
    rw [Real.dist_eq, sub_zero, abs_mul, abs_div, abs_of_pos (by positivity : (0 : ℝ) < 2 ^ j),
      abs_of_pos (by positivity : (0 : ℝ) < 2 ^ k)]
    have h2 : (2 : ℝ) ^ j ≤ 2 ^ k := pow_le_pow_right₀ (by norm_num) hj
    have : (2 : ℝ) ^ j * (|depth| / 2 ^ k) ≤ |depth| := by
      rw [mul_div_assoc', div_le_iff₀ (by positivity), mul_comm]
      exact mul_le_mul_of_nonneg_left h2 (abs_nonneg _)
    exact this.trans_lt hdep
  have h00 := hdet 0 (Nat.zero_le k)
  rw [pow_zero, one_mul] at h00
  have hS := matrixS_eq_ok.2 ⟨h00, rfl⟩
  have hD := doubling_eq (k := k) (Vi_mul_U hU hV) hS fun j hj => by
    have := hdet j (by omega)
    simp only [F] at this
    push_cast at this ⊢
    exact this
  rw [tmatScattering, hT, ok_bind, hS, ok_bind, hD]
  have := hdet k le_rfl
  simp only [F] at this
  push_cast at this ⊢
  exact ⟨_, matrixS_eq_ok.2 ⟨this, rfl⟩⟩

end TLattice

end Khepri
