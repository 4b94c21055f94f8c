import Verif.Spec.Absorb
import Verif.Lemmas.Energy
import Verif.Lemmas.Flux
import Verif.Lemmas.Maxwell
import Verif.Lemmas.Profile
import Verif.Lemmas.FormSolve

set_option linter.unusedSectionVars false

/-!
Fields in strictly absorbing media: the power they carry strictly decreases, every mode decays, and no
slab of such a medium supports a field with outgoing waves only.
-/

namespace Khepri

open Matrix

variable {ι : Type} [Fintype ι] [DecidableEq ι]

theorem StrictlyAbsorbingMat.absorbing {C : Matrix ι ι ℂ} (h : StrictlyAbsorbingMat C) : AbsorbingMat C := by
  intro u
  by_cases hu : u = 0
  · simp [hu]
  · exact (h u hu).le

theorem StrictlyAbsorbingMat.det {C : Matrix ι ι ℂ} (h : StrictlyAbsorbingMat C) : C.det ≠ 0 := by
  intro hd
  obtain ⟨v, hv, h0⟩ := Matrix.exists_mulVec_eq_zero_iff.2 hd
  have := h v hv
  simp [h0] at this

section
variable {kx ky : ι → ℝ} {C : Matrix ι ι ℂ}

local notation "𝒫" => maxwellP (fun i => (kx i : ℂ)) (fun i => (ky i : ℂ)) C
local notation "𝒬" => maxwellQ (fun i => (kx i : ℂ)) (fun i => (ky i : ℂ)) C

/-- Where nothing is absorbed, the electric field vanishes, and so does the magnetic field if it is not
the source of an electric field. -/
theorem absorbed_zero (hs : StrictlyAbsorbingMat C) {E H : ι ⊕ ι → ℂ}
    (h : (∑ i, ((star ((𝒫 *ᵥ H) (.inl i)) * H (.inr i) + star (E (.inl i)) * (𝒬 *ᵥ E) (.inr i)) -
        (star ((𝒫 *ᵥ H) (.inr i)) * H (.inl i) + star (E (.inr i)) * (𝒬 *ᵥ E) (.inl i)))).im = 0) :
    E = 0 ∧ (𝒫 *ᵥ H = 0 → H = 0) := by
  have hp := poynting (kx := kx) (ky := ky) hs.det E H
  simp only at hp
  rw [h, neg_zero] at hp
  set u := (C⁻¹ *ᵥ fun j => (kx j : ℂ) * H (.inr j) - ky j * H (.inl j)) with hu
  have a1 := hs.absorbing fun i => E (.inl i)
  have a2 := hs.absorbing fun i => E (.inr i)
  have a3 := hs.absorbing u
  have z1 : (fun i => E (.inl i)) = 0 := by
    by_contra hne; linarith [hs _ hne]
  have z2 : (fun i => E (.inr i)) = 0 := by
    by_contra hne; linarith [hs _ hne]
  have z3 : u = 0 := by
    by_contra hne; linarith [hs _ hne]
  refine ⟨?_, fun h0 => ?_⟩
  · funext i
    rcases i with i | i
    · exact congrFun z1 i
    · exact congrFun z2 i
  · rw [maxwellP_mulVec, ← hu, z3] at h0
    funext i
    rcases i with i | i
    · have := congrFun h0 (.inr i)
      simpa using this
    · have := congrFun h0 (.inl i)
      simpa using this

theorem flow_eq_zero {P Q : Matrix (ι ⊕ ι) (ι ⊕ ι) ℂ} {F : Tang (ι ⊕ ι)} {t : ℝ}
    (hE : (flow P Q F t).E = 0) (hH : (flow P Q F t).H = 0) : F.E = 0 ∧ F.H = 0 := by
  have h := flow_elim P Q F t
  have hz : Sum.elim (flow P Q F t).E (flow P Q F t).H = 0 := by
    rw [hE, hH]; funext i; rcases i with i | i <;> rfl
  rw [hz] at h
  have hu := Matrix.isUnit_exp ((t : ℂ) • fromBlocks 0 P Q 0)
  have := Matrix.mulVec_injective_of_isUnit hu (a₁ := Sum.elim F.E F.H) (a₂ := 0) (by rw [← h, mulVec_zero])
  constructor
  · funext i; exact congrFun this (.inl i)
  · funext i; exact congrFun this (.inr i)

/-- A strictly absorbing slab takes power from every field. -/
theorem power_flow_strict (hs : StrictlyAbsorbingMat C) {F : Tang (ι ⊕ ι)} {τ : ℝ} (hτ : 0 < τ)
    (h : fluxZ F ≤ fluxZ (flow 𝒫 𝒬 F τ)) : F.E = 0 ∧ F.H = 0 := by
  have hanti := power_flow_antitone (kx := kx) (ky := ky) hs.det hs.absorbing F
  have hconst : ∀ t, 0 ≤ t → t ≤ τ → fluxZ (flow 𝒫 𝒬 F t) = fluxZ F := by
    intro t h0 h1
    have e0 := hanti h0
    have e1 := hanti h1
    simp only [flow_zero] at e0 e1
    linarith
  have hE : ∀ t, 0 < t → t < τ → (flow 𝒫 𝒬 F t).E = 0 ∧
      (𝒫 *ᵥ (flow 𝒫 𝒬 F t).H = 0 → (flow 𝒫 𝒬 F t).H = 0) := by
    intro t h0 h1
    have hev : (fun τ => fluxZ (flow 𝒫 𝒬 F τ)) =ᶠ[nhds t] fun _ => fluxZ F := by
      filter_upwards [Ioo_mem_nhds h0 h1] with s hs'
      exact hconst s hs'.1.le hs'.2.le
    have hd := (hasDerivAt_power 𝒫 𝒬 F t).unique ((hasDerivAt_const t (fluxZ F)).congr_of_eventuallyEq hev)
    exact absorbed_zero hs (neg_eq_zero.1 hd)
  have hm : 0 < τ / 2 ∧ τ / 2 < τ := ⟨by linarith, by linarith⟩
  obtain ⟨e, hH⟩ := hE (τ / 2) hm.1 hm.2
  refine flow_eq_zero e (hH ?_)
  funext i
  have hev : (fun s => (flow 𝒫 𝒬 F s).E i) =ᶠ[nhds (τ / 2)] fun _ => 0 := by
    filter_upwards [Ioo_mem_nhds hm.1 hm.2] with s hs'
    rw [(hE s hs'.1 hs'.2).1]; rfl
  exact (hasDerivAt_flow_E 𝒫 𝒬 F (τ / 2) i).unique
    ((hasDerivAt_const (τ / 2) (0 : ℂ)).congr_of_eventuallyEq hev)

theorem col_ne_zero {n : Type} [Fintype n] [DecidableEq n] {W : Matrix n n ℂ} (hW : W.det ≠ 0) (j : n) :
    W.col j ≠ 0 := by
  intro h
  exact hW (Matrix.det_eq_zero_of_column_eq_zero j fun i => congrFun h i)

/-- No eigenvalue of a strictly absorbing layer vanishes. -/
theorem strict_eigenvalue (hs : StrictlyAbsorbingMat C) {W : Matrix (ι ⊕ ι) (ι ⊕ ι) ℂ} {lam2 : ι ⊕ ι → ℂ}
    (hW : W.det ≠ 0) (h : 𝒫 * 𝒬 * W = W * diagonal lam2) (j : ι ⊕ ι) : lam2 j ≠ 0 := by
  intro h0
  have h1 : 𝒫 *ᵥ (𝒬 *ᵥ W.col j) = 0 := by
    funext i
    have := congrFun (congrFun h i) j
    rw [mul_diagonal, h0, mul_zero, Matrix.mul_assoc] at this
    simpa [Matrix.mul_apply, mulVec, dotProduct] using this
  have h2 : 𝒬 *ᵥ W.col j = 0 :=
    (absorbed_zero hs (E := 0) (H := 𝒬 *ᵥ W.col j) (by simp [h1])).2 h1
  exact col_ne_zero hW j (absorbed_zero (kx := kx) (ky := ky) hs (E := W.col j) (H := 0) (by simp [h2])).1

/-- Every mode of a strictly absorbing layer is damped. -/
theorem strict_damped (hs : StrictlyAbsorbingMat C) {W V : Matrix (ι ⊕ ι) (ι ⊕ ι) ℂ} {lam : ι ⊕ ι → ℂ}
    (hW : W.det ≠ 0) (hm : IsModes 𝒫 𝒬 W V lam) (j : ι ⊕ ι) : (lam j).re ≠ 0 := by
  intro h0
  have h1 : 𝒫 *ᵥ (-V.col j) = -(lam j • W.col j) := by
    funext i
    have := congrFun (congrFun hm.1 i) j
    rw [mul_diagonal] at this
    rw [mulVec_neg, Pi.neg_apply, Pi.neg_apply, neg_inj, Pi.smul_apply, smul_eq_mul, mul_comm]
    simpa [Matrix.mul_apply, mulVec, dotProduct] using this
  have h2 : 𝒬 *ᵥ W.col j = lam j • V.col j := by
    funext i
    have := congrFun (congrFun hm.2 i) j
    rw [mul_diagonal] at this
    rw [Pi.smul_apply, smul_eq_mul, mul_comm]
    simpa [Matrix.mul_apply, mulVec, dotProduct] using this
  have hl : star (lam j) = -lam j := by
    apply Complex.ext <;> simp [h0]
  refine col_ne_zero hW j (absorbed_zero (kx := kx) (ky := ky) hs (E := W.col j) (H := -V.col j) ?_).1
  rw [h1, h2]
  rw [Finset.sum_eq_zero, Complex.zero_im]
  intro i _
  simp only [Pi.neg_apply, Pi.smul_apply, smul_eq_mul, star_neg, star_mul', hl]
  ring

end

/-! ### The gap -/

theorem gap_halfSpace {kx ky : ι → ℝ} {W0 V0 : Matrix (ι ⊕ ι) (ι ⊕ ι) ℂ}
    (h0 : freeSpaceEigenmodes (fun i => (kx i : ℂ)) (fun i => (ky i : ℂ)) = .ok (W0, V0)) :
    ∃ lam, halfSpaceModes (fun i => (kx i : ℂ)) (fun i => (ky i : ℂ)) ((1 : ℝ) : ℂ) = .ok (W0, V0, lam) := by
  obtain ⟨h, h1, h2⟩ := freeSpaceEigenmodes_eq_ok.1 h0
  simp only at h1 h2
  have hk : ∀ i, star (csqrt (((1 : ℝ) : ℂ) - (kx i : ℂ) ^ 2 - (ky i : ℂ) ^ 2)) =
      kzMasked (1 - (kx i : ℂ) ^ 2 - (ky i : ℂ) ^ 2) := by
    intro i
    have e : (1 : ℂ) - (kx i : ℂ) ^ 2 - (ky i : ℂ) ^ 2 = ((1 - kx i ^ 2 - ky i ^ 2 : ℝ) : ℂ) := by push_cast; rfl
    rw [Complex.ofReal_one, e, star_csqrt_ofReal, kzMasked_ofReal]
  refine ⟨stack2 fun i => Complex.I * kzMasked (1 - (kx i : ℂ) ^ 2 - (ky i : ℂ) ^ 2), ?_⟩
  simp only [halfSpaceModes, hk, bind_eq_ok, npDivCols_eq_ok]
  refine ⟨V0, ⟨?_, ?_⟩, ?_⟩
  · rintro (j | j) <;> simp [stack2, kzMasked_eq_zero, h]
  · rw [h2, Complex.ofReal_one]
  · rw [h1]; rfl

theorem waveNorm_nonneg (kx ky : ι → ℝ) (kz : ι → ℂ) (s : ι ⊕ ι → ℂ) (i : ι) : 0 ≤ waveNorm kx ky kz s i := by
  unfold waveNorm; positivity

/-- Waves going backward only carry no power forward. -/
theorem fluxZ_outer_bwd {kx ky : ι → ℝ} {er : ℝ} {p : Port (ι ⊕ ι)}
    (hg : ∀ i, er - kx i ^ 2 - ky i ^ 2 ≠ 0) (hp : p.fwd = 0) : fluxZ (outerField kx ky er p) ≤ 0 := by
  rw [fluxZ_outer hg fun i _ => Or.inl (by simp [hp])]
  refine Finset.sum_nonpos fun i _ => mul_nonpos_of_nonneg_of_nonpos (outerKz_re_nonneg _) ?_
  have : waveNorm kx ky (fun i => outerKz (er - kx i ^ 2 - ky i ^ 2)) p.fwd i = 0 := by
    simp [waveNorm, hp]
  rw [this, zero_sub, neg_nonpos]
  exact waveNorm_nonneg ..

/-- Waves going forward only carry power forward. -/
theorem fluxZ_outer_fwd {kx ky : ι → ℝ} {er : ℝ} {p : Port (ι ⊕ ι)}
    (hg : ∀ i, er - kx i ^ 2 - ky i ^ 2 ≠ 0) (hp : p.bwd = 0) : 0 ≤ fluxZ (outerField kx ky er p) := by
  rw [fluxZ_outer hg fun i _ => Or.inr (by simp [hp])]
  refine Finset.sum_nonneg fun i _ => mul_nonneg (outerKz_re_nonneg _) ?_
  have : waveNorm kx ky (fun i => outerKz (er - kx i ^ 2 - ky i ^ 2)) p.bwd i = 0 := by
    simp [waveNorm, hp]
  rw [this, sub_zero]
  exact waveNorm_nonneg ..

/-! ### One layer -/

section
variable {kx ky : ι → ℝ} {C : Matrix ι ι ℂ} {W V W0 V0 : Matrix (ι ⊕ ι) (ι ⊕ ι) ℂ} {lam : ι ⊕ ι → ℂ}

local notation "𝒫" => maxwellP (fun i => (kx i : ℂ)) (fun i => (ky i : ℂ)) C
local notation "𝒬" => maxwellQ (fun i => (kx i : ℂ)) (fun i => (ky i : ℂ)) C

/-- The power of damped forward modes tends to zero. -/
theorem fluxZ_decay (hl : ∀ j, 0 < (lam j).re) (y : ι ⊕ ι → ℂ) :
    Filter.Tendsto (fun t : ℝ => fluxZ (fieldOf W V ⟨fun j => Complex.exp (-(lam j * t)) * y j, 0⟩))
      Filter.atTop (nhds 0) := by
  have h1 : ∀ j, Filter.Tendsto (fun t : ℝ => Complex.exp (-(lam j * t)) * y j) Filter.atTop (nhds 0) := by
    intro j
    rw [← zero_mul (y j)]
    refine Filter.Tendsto.mul_const _ ?_
    rw [Complex.tendsto_exp_nhds_zero_iff]
    simp only [Complex.neg_re, Complex.mul_re, Complex.ofReal_re, Complex.ofReal_im, mul_zero, sub_zero]
    rw [Filter.tendsto_neg_atBot_iff]
    exact Filter.tendsto_id.const_mul_atTop (hl j)
  have h2 : ∀ (M : Matrix (ι ⊕ ι) (ι ⊕ ι) ℂ) i, Filter.Tendsto
      (fun t : ℝ => ∑ j, M i j * (Complex.exp (-(lam j * t)) * y j)) Filter.atTop (nhds 0) := by
    intro M i
    rw [show (0 : ℂ) = ∑ j : ι ⊕ ι, M i j * 0 by simp]
    exact tendsto_finsetSum _ fun j _ => (h1 j).const_mul _
  have hE : ∀ i, Filter.Tendsto
      (fun t : ℝ => (fieldOf W V ⟨fun j => Complex.exp (-(lam j * t)) * y j, 0⟩).E i) Filter.atTop (nhds 0) := by
    intro i
    refine (h2 W i).congr fun t => ?_
    simp [fieldOf, mulVec, dotProduct]
  have hH : ∀ i, Filter.Tendsto
      (fun t : ℝ => (fieldOf W V ⟨fun j => Complex.exp (-(lam j * t)) * y j, 0⟩).H i) Filter.atTop (nhds 0) := by
    intro i
    have := (h2 V i).neg
    rw [neg_zero] at this
    refine this.congr fun t => ?_
    simp [fieldOf, mulVec, dotProduct]
  unfold fluxZ
  have key := tendsto_finsetSum (Finset.univ : Finset ι) fun i _ =>
    (((hE (.inl i)).star.mul (hH (.inr i))).sub ((hE (.inr i)).star.mul (hH (.inl i))))
  have := ((Complex.continuous_im.tendsto _).comp key).neg
  simpa using this

/-- The scattering matrix of a strictly absorbing layer can always be computed. -/
theorem strict_buildScatmat (hs : StrictlyAbsorbingMat C)
    (h0 : freeSpaceEigenmodes (fun i => (kx i : ℂ)) (fun i => (ky i : ℂ)) = .ok (W0, V0))
    (hW : W.det ≠ 0) (hV : V.det ≠ 0) (hm : IsModes 𝒫 𝒬 W V lam) (hl : ∀ j, 0 < (lam j).re)
    {d k0 : ℝ} (hd : 0 < d * k0) : ∃ S, buildScatmat W V W0 V0 lam d k0 = .ok S := by
  obtain ⟨l0, hh⟩ := gap_halfSpace h0
  obtain ⟨dW0, dV0⟩ := halfSpaceModes_det (by simp) hh
  obtain ⟨hg, -, -, -⟩ := halfSpaceModes_outer hh
  have hgap := gap_outer h0
  have zero : ∀ p : Port (ι ⊕ ι), (fieldOf W0 V0 p).E = 0 ∧ (fieldOf W0 V0 p).H = 0 → p = ⟨0, 0⟩ := by
    intro p hp
    refine fieldOf_injective dW0 dV0 (Tang.ext (hp.1.trans ?_) (hp.2.trans ?_)) <;> simp [fieldOf]
  set A := W⁻¹ * W0 + V⁻¹ * V0 with hA
  set B := W⁻¹ * W0 - V⁻¹ * V0 with hB
  have flowOf : ∀ (y : ι ⊕ ι → ℂ) (t : ℝ), flow 𝒫 𝒬 (fieldOf W V ⟨y, 0⟩) t =
      fieldOf W V ⟨fun j => Complex.exp (-(lam j * t)) * y j, 0⟩ := by
    intro y t
    symm
    rw [← maxwellTransfer_iff_flow, ← modal_iff_maxwell hW hV hm.1 hm.2]
    exact ⟨_, _, rfl, rfl, fun _ => rfl, fun _ => by simp⟩
  have dA : A.det ≠ 0 := by
    intro hdet
    obtain ⟨x, hx, hAx⟩ := Matrix.exists_mulVec_eq_zero_iff.2 hdet
    have hf : fieldOf W0 V0 ⟨0, x⟩ = fieldOf W V ⟨(1 / 2 : ℂ) • (B *ᵥ x), 0⟩ := by
      rw [fieldOf_eq_iff hW hV, ← hA, ← hB]
      exact ⟨by simp, by simp [hAx]⟩
    set y := (1 / 2 : ℂ) • (B *ᵥ x)
    have hanti := power_flow_antitone (kx := kx) (ky := ky) hs.det hs.absorbing (fieldOf W V ⟨y, 0⟩)
    have hlim := fluxZ_decay (W := W) (V := V) hl y
    have hnn : ∀ t, 0 ≤ fluxZ (flow 𝒫 𝒬 (fieldOf W V ⟨y, 0⟩) t) := by
      intro t
      refine le_of_tendsto hlim ?_
      filter_upwards [Filter.eventually_ge_atTop t] with s hs'
      have := hanti hs'
      simp only [flowOf] at this ⊢
      exact this
    have hle : fluxZ (fieldOf W V ⟨y, 0⟩) ≤ 0 := by
      rw [← hf, hgap]; exact fluxZ_outer_bwd hg rfl
    have hz := power_flow_strict (kx := kx) (ky := ky) hs (F := fieldOf W V ⟨y, 0⟩) one_pos
      (hle.trans (hnn 1))
    rw [← hf] at hz
    have := zero _ hz
    simp only [Port.mk.injEq] at this
    exact hx this.2
  set X := propX lam (d * k0) with hX
  set T := A - X * B * (A⁻¹ * X) * B with hT
  refine ⟨⟨T⁻¹ * (X * B * (A⁻¹ * X) * A - B), T⁻¹ * (X * (A - B * (A⁻¹ * B))),
      T⁻¹ * (X * (A - B * (A⁻¹ * B))), T⁻¹ * (X * B * (A⁻¹ * X) * A - B)⟩,
    buildScatmat_eq_ok.2 ⟨A, B, X, T, rfl, rfl, rfl, rfl, hW, hV, dA, ?_, rfl, rfl, rfl, rfl⟩⟩
  intro hdet
  obtain ⟨x, hx, hTx⟩ := Matrix.exists_mulVec_eq_zero_iff.2 hdet
  have hb : LayerBVP W V W0 V0 lam (d * k0) ⟨0, x⟩
      ⟨A⁻¹ *ᵥ (X *ᵥ (B *ᵥ x)), 0⟩ := by
    rw [layerBVP_iff hW hV lam _ _ _ hA hB hX]
    rw [hT, sub_mulVec, sub_eq_zero] at hTx
    constructor
    · simp [mulVec_mulVec, mul_inv_of_det dA, ← Matrix.mul_assoc]
    · simp only [mulVec_zero, zero_add, add_zero]
      rw [hTx]
      simp only [mulVec_mulVec, Matrix.mul_assoc]
  rw [LayerBVP, modal_iff_maxwell hW hV hm.1 hm.2, maxwellTransfer_iff_flow] at hb
  have hz := power_flow_strict (kx := kx) (ky := ky) hs hd (F := fieldOf W0 V0 ⟨0, x⟩) (by
    rw [← hb, hgap, hgap]
    exact (fluxZ_outer_bwd hg rfl).trans (fluxZ_outer_fwd hg rfl))
  have := zero _ hz
  simp only [Port.mk.injEq] at this
  exact hx this.2

end

end Khepri
