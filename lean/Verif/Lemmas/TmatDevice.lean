import Verif.Lemmas.TmatEnergy
import Verif.Lemmas.Analytical

/-!
Layers, interfaces and fluxes of the T-matrix formulation.
-/

set_option linter.unusedSectionVars false

namespace Khepri

open Matrix Complex

theorem TShape.coef_neg (jv1 : ℝ → ℝ) (s : TShape) (area : ℝ) (G : R2) :
    s.coef jv1 area (-G) = star (s.coef jv1 area G) := by
  cases s with
  | uniform => simp [TShape.coef]
  | shape s =>
    simp only [TShape.coef]
    cases h : transformShape jv1 s G area with
    | ok t => rw [transformShape_neg h]
    | error e =>
      cases h' : transformShape jv1 s (-G) area with
      | error e' => simp
      | ok t =>
        have := transformShape_neg h'
        rw [neg_neg, h] at this
        cases this

namespace TLattice
variable {pw : ℕ × ℕ} {a1 a2 : R2} {ei ee : PyNum} {l : TLattice} {jv1 : ℝ → ℝ} {wl : ℝ}

/-- Real permittivities couple the orders symmetrically. -/
theorem coupling_herm (islands : List (TShape × ℂ)) (host : ℂ) (f : ℂ → ℂ) (hh : (f host).im = 0)
    (hi : ∀ d ∈ islands, (f d.2).im = 0) : (l.coupling jv1 islands host f).IsHermitian := by
  ext i j
  have hH : star (f host) = f host := Complex.conj_eq_iff_im.2 hh
  simp only [coupling, conjTranspose_apply, of_apply, star_add]
  congr 1
  · by_cases h : i = j
    · subst h; simpa using hH
    · simp [h, Ne.symm h]
  · induction islands with
    | nil => simp
    | cons d ds ih =>
      have hE : star (f d.2) = f d.2 := Complex.conj_eq_iff_im.2 (hi d (List.mem_cons_self ..))
      simp only [List.map_cons, List.sum_cons, star_add]
      rw [ih fun d hd => hi d (List.mem_cons_of_mem _ hd)]
      congr 1
      rw [star_mul', star_sub, hH, hE, ← TShape.coef_neg]
      congr 2
      ext <;> simp

variable {a b : ℝ}

/-- Both orders of multiplication. -/
theorem Vi_mul_U {U V : Matrix (TIdx l.shape) (TIdx l.shape) ℂ} (hU : l.U wl (↑a, ↑b) = .ok U)
    (hV : l.V l.epsI wl (↑a, ↑b) = .ok V) : V * U = 1 := mul_eq_one_comm.1 (U_mul_Vi hU hV)

theorem layer_S (h : TLattice.make pw a1 a2 ei ee = .ok l) (hs : l.shape = pw) {islands : List (TShape × ℂ)} {host : ℂ}
    {depth : ℝ} {k : ℕ} {S : Matrix (TIdx l.shape) (TIdx l.shape) ℂ}
    (hS : tmatScattering jv1 l islands host wl (↑a, ↑b) depth k = .ok S) :
    ∃ U V, l.U wl (↑a, ↑b) = .ok U ∧ l.V l.epsI wl (↑a, ↑b) = .ok V ∧ wl ≠ 0 ∧ host ≠ 0 ∧ (∀ d ∈ islands, d.2 ≠ 0) ∧
      matrixS (U * NormedSpace.exp (-((depth : ℂ) • tsystem (l.wave (↑a, ↑b)) (l.coupling jv1 islands host id)
        (l.coupling jv1 islands host (1 / ·)) ((2 * Real.pi / wl : ℝ) : ℂ))) * V) = .ok S := by
  simp only [tmatScattering, bind_eq_ok] at hS
  obtain ⟨T, hT, S0, hS0, hS⟩ := hS
  obtain ⟨U, V, hU, hV, h1, h2, h3, rfl⟩ := slice_ok h hs hT
  refine ⟨U, V, hU, hV, h1, h2, h3, ?_⟩
  have := doubling_ok (Vi_mul_U hU hV) hS0 hS
  rwa [show (2 : ℂ) ^ k * ((depth / 2 ^ k : ℝ) : ℂ) = (depth : ℂ) by
    push_cast; field_simp] at this

theorem relates_iff {n : Type} [Fintype n] [DecidableEq n] {U V E : Matrix n n ℂ} (hUV : U * V = 1) (hVU : V * U = 1)
    (u v : n → ℂ) : u = (U * E * V) *ᵥ v ↔ V *ᵥ u = E *ᵥ (V *ᵥ v) := by
  constructor
  · rintro rfl
    simp only [mulVec_mulVec, ← Matrix.mul_assoc, hVU, Matrix.one_mul]
  · intro h
    have := congrArg (U *ᵥ ·) h
    simpa only [mulVec_mulVec, ← Matrix.mul_assoc, hUV, one_mulVec] using this

theorem layer_relates (h : TLattice.make pw a1 a2 ei ee = .ok l) (hs : l.shape = pw) {islands : List (TShape × ℂ)} {host : ℂ}
    {depth : ℝ} {k : ℕ} {S V : Matrix (TIdx l.shape) (TIdx l.shape) ℂ}
    (hS : tmatScattering jv1 l islands host wl (↑a, ↑b) depth k = .ok S) (hV : l.V l.epsI wl (↑a, ↑b) = .ok V)
    (u v : TIdx l.shape → ℂ) :
    TScatters S u v ↔ ∃ f : ℝ → TIdx l.shape → ℂ, (∀ z i, HasDerivAt (fun t => f t i) ((tsystem (l.wave (↑a, ↑b)) (l.coupling jv1 islands host id)
        (l.coupling jv1 islands host (1 / ·)) ((2 * Real.pi / wl : ℝ) : ℂ) *ᵥ f z) i) z) ∧ f 0 = V *ᵥ u ∧ f depth = V *ᵥ v := by
  obtain ⟨U, V', hU, hV', -, -, -, hS⟩ := layer_S h hs hS
  rw [hV] at hV'
  cases hV'
  rw [matrixS_relates hS, relates_iff (U_mul_Vi hU hV) (Vi_mul_U hU hV), flow_joins]

/-- Layers of real permittivity conserve power. -/
theorem layer_power (h : TLattice.make pw a1 a2 ei ee = .ok l) (hs : l.shape = pw) {islands : List (TShape × ℂ)} {host : ℂ}
    (hh : host.im = 0) (hi : ∀ d ∈ islands, d.2.im = 0)
    {depth : ℝ} {k : ℕ} {S V : Matrix (TIdx l.shape) (TIdx l.shape) ℂ}
    (hS : tmatScattering jv1 l islands host wl (↑a, ↑b) depth k = .ok S) (hV : l.V l.epsI wl (↑a, ↑b) = .ok V)
    {u v : TIdx l.shape → ℂ} (huv : TScatters S u v) : TPower (V *ᵥ u) = TPower (V *ᵥ v) := by
  obtain ⟨f, hf, hu, hv⟩ := (layer_relates h hs hS hV u v).1 huv
  have hinv : ∀ z : ℂ, z.im = 0 → (1 / z).im = 0 := by
    intro z hz
    rw [one_div, inv_im, hz]; simp
  rw [← hu, ← hv]
  refine tpower_const (v := fun k => (a + flatT l.shape l.gx k, b + flatT l.shape l.gy k)) (k0 := 2 * Real.pi / wl)
    (coupling_herm (jv1 := jv1) islands host id hh hi) (coupling_herm (jv1 := jv1) islands host (1 / ·) (hinv host hh) fun d hd => hinv _ (hi d hd)) ?_ 0 depth
  intro z i
  have : (fun k => (((a + flatT l.shape l.gx k : ℝ) : ℂ), ((b + flatT l.shape l.gy k : ℝ) : ℂ))) = l.wave (↑a, ↑b) := by
    funext k; rw [wave]; push_cast; rfl
  simp only [this]
  exact hf z i

/-- The interface joins equal tangential fields. -/
theorem interface_relates {S Vi Ve : Matrix (TIdx l.shape) (TIdx l.shape) ℂ} (hS : tmatInterface l wl (↑a, ↑b) = .ok S)
    (hi : l.V l.epsI wl (↑a, ↑b) = .ok Vi) (he : l.V l.epsE wl (↑a, ↑b) = .ok Ve) (u v : TIdx l.shape → ℂ) :
    TScatters S u v ↔ Vi *ᵥ u = Ve *ᵥ v := by
  simp only [tmatInterface, bind_eq_ok] at hS
  obtain ⟨U, hU, V', hV', hS⟩ := hS
  rw [he] at hV'
  cases hV'
  rw [matrixS_relates hS]
  constructor
  · rintro rfl
    rw [mulVec_mulVec, ← Matrix.mul_assoc, Vi_mul_U hU hi, Matrix.one_mul]
  · intro h
    rw [← mulVec_mulVec, ← h, mulVec_mulVec, U_mul_Vi hU hi, one_mulVec]

/-! ### Existence when every order propagates -/

theorem kz_re_pos {eps : PyNum} {kp : ℂ × ℂ} {k : Fin (l.shape.1 * l.shape.2)} (him : (flatT l.shape (l.kz eps wl kp) k).im = 0)
    (h0 : flatT l.shape (l.kz eps wl kp) k ≠ 0) : 0 < (flatT l.shape (l.kz eps wl kp) k).re := by
  have h := (computeKz_branch (l.gx ((k : ℕ) % l.shape.1) ((k : ℕ) / l.shape.1))
    (l.gy ((k : ℕ) % l.shape.1) ((k : ℕ) / l.shape.1)) eps.val wl kp).2 him
  refine lt_of_le_of_ne h fun h' => h0 ?_
  exact Complex.ext h'.symm him

theorem transfer_det {r : ℝ} (he : l.epsI.val = r) (hr : 0 < r) {U V : Matrix (TIdx l.shape) (TIdx l.shape) ℂ}
    (hU : l.U wl (↑a, ↑b) = .ok U) (hV : l.V l.epsI wl (↑a, ↑b) = .ok V)
    (hk : ∀ k, (flatT l.shape (l.kz l.epsI wl (↑a, ↑b)) k).im = 0)
    {e ei : Matrix (Fin (l.shape.1 * l.shape.2)) (Fin (l.shape.1 * l.shape.2)) ℂ} (h1 : e.IsHermitian) (h2 : ei.IsHermitian)
    (depth k0 : ℝ) :
    (U * NormedSpace.exp (-((depth : ℂ) • tsystem (l.wave (↑a, ↑b)) e ei k0)) * V).toBlocks₁₁.det ≠ 0 := by
  intro hdet
  obtain ⟨v, hv0, hv⟩ := Matrix.exists_mulVec_eq_zero_iff.2 hdet
  set T := U * NormedSpace.exp (-((depth : ℂ) • tsystem (l.wave (↑a, ↑b)) e ei k0)) * V with hT
  have hrel := (relates_iff (E := NormedSpace.exp (-((depth : ℂ) • tsystem (l.wave (↑a, ↑b)) e ei k0))) (U_mul_Vi hU hV)
    (Vi_mul_U hU hV) (T *ᵥ Sum.elim v 0) (Sum.elim v 0)).1 rfl
  obtain ⟨f, hf, hf0, hfd⟩ := flow_joins.2 hrel
  have hpow : TPower (V *ᵥ (T *ᵥ Sum.elim v 0)) = TPower (V *ᵥ Sum.elim v 0) := by
    rw [← hf0, ← hfd]
    refine tpower_const (v := fun k => (a + flatT l.shape l.gx k, b + flatT l.shape l.gy k)) (k0 := k0) h1 h2 ?_ 0 depth
    intro z i
    have : (fun k => (((a + flatT l.shape l.gx k : ℝ) : ℂ), ((b + flatT l.shape l.gy k : ℝ) : ℂ))) = l.wave (↑a, ↑b) := by
      funext k; rw [wave]; push_cast; rfl
    simp only [this]
    exact hf z i
  rw [blocks_mulVec, hv, mulVec_zero, mulVec_zero, add_zero, add_zero, power_V he hr hV fun k => .inl (hk k),
    power_V he hr hV fun k => .inl (hk k)] at hpow
  have hwl := (U_ok hU).1
  have hc : wl / (2 * Real.pi * mu0c) ≠ 0 := div_ne_zero hwl (by have := mu0c_pos; positivity)
  have hsum := mul_left_cancel₀ hc hpow
  simp only [hk, if_true, Sum.elim_inl, Sum.elim_inr, Pi.zero_apply, norm_zero] at hsum
  have hpos := fun k => kz_re_pos (hk k) ((U_ok hU).2.2.1 k)
  have hle : ∑ k, (flatT l.shape (l.kz l.epsI wl (↑a, ↑b)) k).re * (0 ^ 2 + 0 ^ 2 -
      (‖(T.toBlocks₂₁ *ᵥ v) (.inl k)‖ ^ 2 + ‖(T.toBlocks₂₁ *ᵥ v) (.inr k)‖ ^ 2)) ≤ 0 := by
    refine Finset.sum_nonpos fun k _ => mul_nonpos_of_nonneg_of_nonpos (hpos k).le ?_
    have := sq_nonneg ‖(T.toBlocks₂₁ *ᵥ v) (.inl k)‖
    have := sq_nonneg ‖(T.toBlocks₂₁ *ᵥ v) (.inr k)‖
    linarith
  have hgt : 0 < ∑ k, (flatT l.shape (l.kz l.epsI wl (↑a, ↑b)) k).re * (‖v (.inl k)‖ ^ 2 + ‖v (.inr k)‖ ^ 2 - (0 ^ 2 + 0 ^ 2)) := by
    obtain ⟨i, hi⟩ := Function.ne_iff.1 hv0
    refine Finset.sum_pos' (fun k _ => ?_) ?_
    · have h1 := sq_nonneg ‖v (.inl k)‖
      have h2 := sq_nonneg ‖v (.inr k)‖
      exact mul_nonneg (hpos k).le (by linarith)
    · rcases i with i | i
      · refine ⟨i, Finset.mem_univ _, mul_pos (hpos i) ?_⟩
        have h1 : 0 < ‖v (.inl i)‖ ^ 2 := by have := norm_pos_iff.2 hi; positivity
        have h2 := sq_nonneg ‖v (.inr i)‖
        linarith
      · refine ⟨i, Finset.mem_univ _, mul_pos (hpos i) ?_⟩
        have h1 : 0 < ‖v (.inr i)‖ ^ 2 := by have := norm_pos_iff.2 hi; positivity
        have h2 := sq_nonneg ‖v (.inl i)‖
        linarith
  linarith

/-- A layer of real permittivities seen by propagating orders always has an S-matrix. -/
theorem layer_exists (h : TLattice.make pw a1 a2 ei ee = .ok l) (hs : l.shape = pw) (h0 : 0 < pw.1 ∧ 0 < pw.2)
    {islands : List (TShape × ℂ)} {host : ℂ} (hh : host ≠ 0) (hi : ∀ d ∈ islands, d.2 ≠ 0)
    (hhr : host.im = 0) (hir : ∀ d ∈ islands, d.2.im = 0)
    (ht : ∀ d ∈ islands, ∃ t, l.transform jv1 d.1 = .ok t) (hw : wl ≠ 0) {r : ℝ} (he : l.epsI.val = r) (hr : 0 < r)
    (hk0 : ∀ k, flatT l.shape (l.kz l.epsI wl (↑a, ↑b)) k ≠ 0)
    (hk : ∀ k, (flatT l.shape (l.kz l.epsI wl (↑a, ↑b)) k).im = 0) (depth : ℝ) (k : ℕ) :
    ∃ S, tmatScattering jv1 l islands host wl (↑a, ↑b) depth k = .ok S := by
  have he0 : l.epsI.val ≠ 0 := by rw [he]; exact_mod_cast hr.ne'
  have hroot : Rooted l.epsI := by
    cases hE : l.epsI with
    | float x =>
      rw [hE] at he
      have : x = r := by simpa [PyNum.val] using he
      simp only [Rooted]; linarith
    | complex z => trivial
  obtain ⟨T, hT⟩ := slice_exists (jv1 := jv1) h hs h0 hh hi ht hw he0 hroot hk0 depth k
  obtain ⟨U, V, hU, hV, -, -, -, rfl⟩ := slice_ok h hs hT
  have hinv : ∀ z : ℂ, z.im = 0 → (1 / z).im = 0 := by
    intro z hz
    rw [one_div, inv_im, hz]; simp
  have hd := fun d : ℝ => transfer_det he hr hU hV hk (coupling_herm (l := l) (jv1 := jv1) islands host id hhr hir)
    (coupling_herm (l := l) (jv1 := jv1) islands host (1 / ·) (hinv host hhr) fun d hd => hinv _ (hir d hd)) d (2 * Real.pi / wl)
  have hS := matrixS_eq_ok.2 ⟨hd (depth / 2 ^ k), rfl⟩
  have hD := doubling_eq (k := k) (Vi_mul_U hU hV) hS fun j _ => by
    have := hd (2 ^ j * (depth / 2 ^ k))
    push_cast at this ⊢
    exact this
  rw [tmatScattering, hT, ok_bind, hS, ok_bind, hD]
  have := hd (2 ^ k * (depth / 2 ^ k))
  push_cast at this ⊢
  exact ⟨_, matrixS_eq_ok.2 ⟨this, rfl⟩⟩

/-! ### Fluxes -/

/-- No order is so close to grazing that the code takes an evanescent wave for a propagating one. -/
def NonGrazing (l : TLattice) (eps : PyNum) (wl : ℝ) (kp : ℂ × ℂ) : Prop :=
  ∀ k, (flatT l.shape (l.kz eps wl kp) k).im = 0 ∨ floatEps < |(flatT l.shape (l.kz eps wl kp) k).im|

theorem floatEps_pos : 0 < floatEps := by unfold floatEps; positivity

/-- A current. -/
noncomputable def cur (l : TLattice) (eps : PyNum) (wl : ℝ) (kp : ℂ × ℂ) (x : Fin (l.shape.1 * l.shape.2) → ℝ) : ℝ :=
  ∑ k, if (flatT l.shape (l.kz eps wl kp) k).im = 0 then (flatT l.shape (l.kz eps wl kp) k).re * x k else 0

theorem cur_nonneg (l : TLattice) (eps : PyNum) (wl : ℝ) (kp : ℂ × ℂ) {x : Fin (l.shape.1 * l.shape.2) → ℝ} (hx : ∀ k, 0 ≤ x k) :
    0 ≤ l.cur eps wl kp x := by
  refine Finset.sum_nonneg fun k _ => ?_
  split_ifs with h
  · exact mul_nonneg ((computeKz_branch _ _ _ _ _).2 h) (hx k)
  · exact le_rfl

theorem currents_eq {pin psca : TIdx l.shape → ℂ} (kp : ℂ × ℂ) (hI : l.NonGrazing l.epsI wl kp) (hE : l.NonGrazing l.epsE wl kp)
    (he : l.epsE.val.im = 0) :
    let q : ℂ := (l.area / (2 * mu0c * (2 * Real.pi) / wl) : ℝ)
    (∑ k, (computeCurrents l wl pin psca kp).1 k =
      q * l.cur l.epsI wl kp fun k => ‖pin (.inl (.inl k))‖ ^ 2 + ‖pin (.inl (.inr k))‖ ^ 2) ∧
    (∑ k, (computeCurrents l wl pin psca kp).2.1 k =
      q * l.cur l.epsI wl kp fun k => ‖psca (.inr (.inl k))‖ ^ 2 + ‖psca (.inr (.inr k))‖ ^ 2) ∧
    (∑ k, (computeCurrents l wl pin psca kp).2.2 k =
      q * l.cur l.epsE wl kp fun k => ‖psca (.inl (.inl k))‖ ^ 2 + ‖psca (.inl (.inr k))‖ ^ 2) := by
  intro q
  have hreal : ∀ z : ℂ, z.im = 0 → z = (z.re : ℂ) := fun z hz => Complex.ext rfl (by simpa using hz)
  have hp := floatEps_pos
  refine ⟨?_, ?_, ?_⟩
  · rw [cur, ofReal_sum, Finset.mul_sum]
    refine Finset.sum_congr rfl fun k _ => ?_
    simp only [computeCurrents]
    rcases hI k with h | h
    · rw [if_pos (by rw [h]; simpa using hp.le), if_pos h, ofReal_mul, ← hreal _ h]
      exact mul_assoc _ _ _
    · rw [if_neg (not_le.2 h), if_neg (fun h' => by rw [h', abs_zero] at h; linarith)]
      simp
  · rw [cur, ofReal_sum, Finset.mul_sum]
    refine Finset.sum_congr rfl fun k _ => ?_
    simp only [computeCurrents]
    rcases hI k with h | h
    · rw [if_pos (by rw [h]; simpa using hp.le), if_pos h, ofReal_mul, ← hreal _ h]
      exact mul_assoc _ _ _
    · rw [if_neg (not_le.2 h), if_neg (fun h' => by rw [h', abs_zero] at h; linarith)]
      simp
  · rw [cur, ofReal_sum, Finset.mul_sum]
    refine Finset.sum_congr rfl fun k _ => ?_
    simp only [computeCurrents]
    rcases hE k with h | h
    · rw [if_pos ⟨by rw [he]; simpa using hp, by rw [h]; simpa using hp⟩, if_pos h, ofReal_mul, ← hreal _ h]
      exact mul_assoc _ _ _
    · rw [if_neg (fun h' => absurd h'.2 (not_lt.2 h.le)), if_neg (fun h' => by rw [h', abs_zero] at h; linarith)]
      simp

/-- What `compute_fluxes` returns. -/
theorem fluxes_eq {pin pout : TIdx l.shape → ℂ} {kp : ℂ × ℂ} {R T A : ℝ} (h : computeFluxes l wl pin pout kp = .ok (R, T, A)) :
    (∑ k, (computeCurrents l wl pin pout (0, 0)).1 k ≠ 0) ∧
    R = ‖(∑ k, (computeCurrents l wl pin pout (0, 0)).2.1 k) / ∑ k, (computeCurrents l wl pin pout (0, 0)).1 k‖ ∧
    T = ‖(∑ k, (computeCurrents l wl pin pout (0, 0)).2.2 k) / ∑ k, (computeCurrents l wl pin pout (0, 0)).1 k‖ ∧
    A = 1 - R - T := by
  simp only [computeFluxes, bind_eq_ok, pyCheck_eq_ok] at h
  obtain ⟨_, -, _, h1, h⟩ := h
  cases h
  exact ⟨h1, rfl, rfl, rfl⟩

theorem fluxes_conserve {ri re : ℝ} (hi : l.epsI.val = ri) (hri : 0 < ri) (he : l.epsE.val = re) (hre : 0 < re)
    (hI : l.NonGrazing l.epsI wl (0, 0)) (hE : l.NonGrazing l.epsE wl (0, 0))
    {Vi Ve : Matrix (TIdx l.shape) (TIdx l.shape) ℂ} (hVi : l.V l.epsI wl (0, 0) = .ok Vi) (hVe : l.V l.epsE wl (0, 0) = .ok Ve)
    {pin pout : TIdx l.shape → ℂ} (hpin : ∀ k, (flatT l.shape (l.kz l.epsI wl (0, 0)) k).im = 0 ∨
      (pin (.inl (.inl k)) = 0 ∧ pin (.inl (.inr k)) = 0))
    (hpow : TPower (Vi *ᵥ Sum.elim (pin ∘ Sum.inl) (pout ∘ Sum.inr)) = TPower (Ve *ᵥ Sum.elim (pout ∘ Sum.inl) 0))
    {kp : ℂ × ℂ} {R T A : ℝ} (h : computeFluxes l wl pin pout kp = .ok (R, T, A)) : R + T = 1 ∧ A = 0 := by
  obtain ⟨h0, hR, hT, hA⟩ := fluxes_eq h
  obtain ⟨c1, c2, c3⟩ := currents_eq (pin := pin) (psca := pout) (0, 0) hI hE (by rw [he]; simp)
  have z0 : (((0 : ℝ) : ℂ), ((0 : ℝ) : ℂ)) = (0, 0) := by simp
  have p1 := power_V (a := 0) (b := 0) (p := Sum.elim (pin ∘ Sum.inl) (pout ∘ Sum.inr)) hi hri (by rw [z0]; exact hVi) (by
    rw [z0]
    intro k
    rcases hpin k with h | h
    · exact .inl h
    · exact .inr (.inl h))
  have p2 := power_V (a := 0) (b := 0) (p := Sum.elim (pout ∘ Sum.inl) 0) he hre (by rw [z0]; exact hVe) (fun k => .inr (.inr ⟨rfl, rfl⟩))
  rw [z0] at p1 p2
  rw [p1, p2] at hpow
  have hwl := (V_ok hVi).1
  have hc : wl / (2 * Real.pi * mu0c) ≠ 0 := div_ne_zero hwl (by have := mu0c_pos; positivity)
  have hsum := mul_left_cancel₀ hc hpow
  set X := l.cur l.epsI wl (0, 0) fun k => ‖pin (.inl (.inl k))‖ ^ 2 + ‖pin (.inl (.inr k))‖ ^ 2 with hX
  set Y := l.cur l.epsI wl (0, 0) fun k => ‖pout (.inr (.inl k))‖ ^ 2 + ‖pout (.inr (.inr k))‖ ^ 2 with hY
  set Z := l.cur l.epsE wl (0, 0) fun k => ‖pout (.inl (.inl k))‖ ^ 2 + ‖pout (.inl (.inr k))‖ ^ 2 with hZ
  have hXYZ : X - Y = Z := by
    have e1 : X - Y = ∑ k, if (flatT l.shape (l.kz l.epsI wl (0, 0)) k).im = 0 then
        (flatT l.shape (l.kz l.epsI wl (0, 0)) k).re * (‖Sum.elim (pin ∘ Sum.inl) (pout ∘ Sum.inr) (.inl (.inl k))‖ ^ 2 +
          ‖Sum.elim (pin ∘ Sum.inl) (pout ∘ Sum.inr) (.inl (.inr k))‖ ^ 2 -
          (‖Sum.elim (pin ∘ Sum.inl) (pout ∘ Sum.inr) (.inr (.inl k))‖ ^ 2 +
          ‖Sum.elim (pin ∘ Sum.inl) (pout ∘ Sum.inr) (.inr (.inr k))‖ ^ 2)) else 0 := by
      rw [hX, hY, cur, cur, ← Finset.sum_sub_distrib]
      refine Finset.sum_congr rfl fun k _ => ?_
      split_ifs
      · simp only [Sum.elim_inl, Sum.elim_inr, Function.comp]; ring
      · ring
    rw [e1, hsum, hZ, cur]
    refine Finset.sum_congr rfl fun k _ => ?_
    split_ifs
    · simp [Function.comp]
    · rfl
  have hX0 : 0 ≤ X := cur_nonneg _ _ _ _ fun k => by positivity
  have hY0 : 0 ≤ Y := cur_nonneg _ _ _ _ fun k => by positivity
  have hZ0 : 0 ≤ Z := cur_nonneg _ _ _ _ fun k => by positivity
  rw [c1] at h0
  have hq : ((l.area / (2 * mu0c * (2 * Real.pi) / wl) : ℝ) : ℂ) ≠ 0 := left_ne_zero_of_mul h0
  have hXn : X ≠ 0 := by exact_mod_cast right_ne_zero_of_mul h0
  have hXp : 0 < X := lt_of_le_of_ne hX0 (Ne.symm hXn)
  have hR' : R = Y / X := by
    rw [hR, c1, c2, mul_div_mul_left _ _ hq, norm_div, norm_real, norm_real, Real.norm_of_nonneg hY0, Real.norm_of_nonneg hX0]
  have hT' : T = Z / X := by
    rw [hT, c1, c3, mul_div_mul_left _ _ hq, norm_div, norm_real, norm_real, Real.norm_of_nonneg hZ0, Real.norm_of_nonneg hX0]
  have hRT : R + T = 1 := by rw [hR', hT', ← add_div, ← hXYZ]; field_simp; ring
  exact ⟨hRT, by rw [hA]; linarith⟩

end TLattice

end Khepri
