import Verif.Lemmas.EzScale
import Verif.Lemmas.Draw

/-! Spectra of project files. -/

set_option linter.unusedSectionVars false

namespace Khepri

open Matrix Complex

theorem product_get {α β : Type} {ys : List β} {j : ℕ} {y : β} (hy : ys[j]? = some y) :
    ∀ {xs : List α} {i : ℕ} {x : α}, xs[i]? = some x → (xs ×ˢ ys)[i * ys.length + j]? = some (x, y)
  | a :: xs, 0, x, hx => by
    have hj : j < ys.length := (List.getElem?_eq_some_iff.1 hy).1
    rw [List.product_cons, zero_mul, zero_add, List.getElem?_append_left (by simpa using hj), List.getElem?_map, hy]
    simp at hx
    simp [hx]
  | a :: xs, i + 1, x, hx => by
    rw [List.product_cons, List.getElem?_append_right (by rw [List.length_map]; nlinarith), List.length_map,
      show (i + 1) * ys.length + j - ys.length = i * ys.length + j by
        rw [Nat.add_mul, one_mul]; omega]
    exact product_get hy (by simpa using hx)

theorem sweep_get {w : EzSweep} {i : ℕ} (h : i < w.steps) : w.values[i]? = some (linspaceAt w.start w.stop w.steps i) := by
  simp [EzSweep.values, h]

theorem sweep_length (w : EzSweep) : w.values.length = w.steps := by simp [EzSweep.values]

theorem configs_get {st : EzStudy} {i j k : ℕ} (hi : i < st.phi.steps) (hj : j < st.theta.steps) (hk : k < st.frequency.steps) :
    st.configs[(i * st.theta.steps + j) * st.frequency.steps + k]? =
      some (linspaceAt st.phi.start st.phi.stop st.phi.steps i, linspaceAt st.theta.start st.theta.stop st.theta.steps j,
        linspaceAt st.frequency.start st.frequency.stop st.frequency.steps k) := by
  have := product_get (product_get (sweep_get hk) (sweep_get hj)) (sweep_get hi)
  rw [List.length_product, sweep_length, sweep_length] at this
  rw [EzStudy.configs, ← this]
  congr 1
  ring

theorem configs_length (st : EzStudy) : st.configs.length = st.phi.steps * st.theta.steps * st.frequency.steps := by
  rw [EzStudy.configs, List.length_product, List.length_product, sweep_length, sweep_length, sweep_length, mul_assoc]

theorem ezSpectrum_eq_ok {jv1 : ℝ → ℝ} {cfg : EzConfig} {fuel : ℕ} {st : EzStudy} {device : String} {rows : List EzRow}
    (h : ezSpectrum jv1 cfg fuel st device = .ok rows) : ∃ l, ezLattice cfg = .ok l ∧
      List.Forall₂ (fun c r => ezPoint jv1 cfg fuel l st.s st.p device c = .ok r) st.configs rows := by
  simp only [ezSpectrum, bind_eq_ok] at h
  obtain ⟨l, hl, _, _, _, _, _, _, h⟩ := h
  exact ⟨l, hl, mapM_eq_ok.1 h⟩

theorem ezPoint_eq_ok {jv1 : ℝ → ℝ} {cfg : EzConfig} {fuel : ℕ} {l : TLattice} {s p : ℂ} {device : String} {c : ℝ × ℝ × ℝ}
    {r : EzRow} : ezPoint jv1 cfg fuel l s p device c = .ok r ↔ c.2.2 ≠ 0 ∧ ∃ kp S pin0 pin R T A,
      computeKplanar l.epsI.val (cfg.a / c.2.2) c.2.1 c.1 = .ok kp ∧ ezDevice jv1 cfg fuel l (cfg.a / c.2.2) kp device = .ok S ∧
      tmatIncident cfg.pw 1 p s = .ok pin0 ∧ fitVector cfg.pw l.shape pin0 = .ok pin ∧
      computeFluxes l (cfg.a / c.2.2) pin (S *ᵥ pin) kp = .ok (R, T, A) ∧ r = ⟨c.1, c.2.1, c.2.2, cfg.a / c.2.2, R, T, A⟩ := by
  simp only [ezPoint, bind_eq_ok, pyCheck_eq_ok, pure, Except.pure, Except.ok.injEq]
  constructor
  · rintro ⟨_, h0, kp, h1, S, h2, p0, h3, p, h4, ⟨R, T, A⟩, h5, rfl⟩
    exact ⟨h0, kp, S, p0, p, R, T, A, h1, h2, h3, h4, h5, rfl⟩
  · rintro ⟨h0, kp, S, p0, p, R, T, A, h1, h2, h3, h4, h5, rfl⟩
    exact ⟨(), h0, kp, h1, S, h2, p0, h3, p, h4, (R, T, A), h5, rfl⟩

/-- The excitation. -/
theorem fitVector_eq_ok {pw s : ℕ × ℕ} {p q : ℂ}
    {pin0 : (Fin (pw.1 * pw.2) ⊕ Fin (pw.1 * pw.2)) ⊕ (Fin (pw.1 * pw.2) ⊕ Fin (pw.1 * pw.2)) → ℂ} {pin : TIdx s → ℂ}
    (h0 : tmatIncident pw 1 p q = .ok pin0) (h : fitVector pw s pin0 = .ok pin) :
    s.1 * s.2 = pw.1 * pw.2 ∧ pw.1 / 2 + pw.1 * (pw.2 / 2) < pw.1 * pw.2 ∧
    (∀ k, pin (.inl (.inl k)) = if (k : ℕ) = pw.1 / 2 + pw.1 * (pw.2 / 2) then q else 0) ∧
    (∀ k, pin (.inl (.inr k)) = if (k : ℕ) = pw.1 / 2 + pw.1 * (pw.2 / 2) then p else 0) ∧ ∀ i, pin (.inr i) = 0 := by
  unfold fitVector at h
  split_ifs at h with hs
  simp only [tmatIncident, bind_eq_ok, pyCheck_eq_ok, pure, Except.pure, Except.ok.injEq] at h0
  obtain ⟨_, hlt, rfl⟩ := h0
  cases h
  refine ⟨hs, hlt, fun k => ?_, fun k => ?_, fun i => ?_⟩
  · simp
  · simp
  · rcases i with i | i <;> simp

theorem fitVector_exists {pw s : ℕ × ℕ} (h : s.1 * s.2 = pw.1 * pw.2)
    (p : (Fin (pw.1 * pw.2) ⊕ Fin (pw.1 * pw.2)) ⊕ (Fin (pw.1 * pw.2) ⊕ Fin (pw.1 * pw.2)) → ℂ) :
    ∃ pin, fitVector pw s p = .ok pin := by
  rw [fitVector, dif_pos h]
  exact ⟨_, rfl⟩

theorem ezLattice_eq_ok {cfg : EzConfig} {l : TLattice} : ezLattice cfg = .ok l ↔ ∃ ei ee,
    cfg.materials cfg.incident = some ei ∧ cfg.materials cfg.substrate = some ee ∧
    TLattice.make cfg.pw (cfg.a1.1 * cfg.a, cfg.a1.2 * cfg.a) (cfg.a2.1 * cfg.a, cfg.a2.2 * cfg.a) (.float ei) (.float ee) = .ok l := by
  simp only [ezLattice, bind_eq_ok, pyKey_eq_ok]
  constructor
  · rintro ⟨ei, h1, ee, h2, h⟩
    exact ⟨ei, ee, h1, h2, h⟩
  · rintro ⟨ei, ee, h1, h2, h⟩
    exact ⟨ei, h1, ee, h2, h⟩

/-- Slices of layers and the interface use the waves of both media. -/
theorem device_V {jv1 : ℝ → ℝ} {cfg : EzConfig} {fuel : ℕ} {l : TLattice} {wl : ℝ} {kp : ℂ × ℂ} {device : String}
    {S : Matrix (TIdx l.shape) (TIdx l.shape) ℂ} (h : ezDevice jv1 cfg fuel l wl kp device = .ok S) :
    ∃ Vi Ve, l.V l.epsI wl kp = .ok Vi ∧ l.V l.epsE wl kp = .ok Ve := by
  obtain ⟨req, Ss, Stot, Si, -, hne, hl, -, hi, -⟩ := ezDevice_eq_ok.1 h
  simp only [tmatInterface, bind_eq_ok] at hi
  obtain ⟨U, -, Ve, hVe, -⟩ := hi
  have hf := ezLayers_eq_ok hl
  cases hf with
  | nil => simp at hne
  | cons hx _ =>
    obtain ⟨-, ly, -, hs⟩ := hx
    simp only [ezSolve, tmatScattering, sliceTransfer, bind_eq_ok] at hs
    obtain ⟨o, -, T, ⟨_, _, _, _, _, _, _, _, Vi, hVi, _⟩, _⟩ := hs
    exact ⟨Vi, Ve, hVi, hVe⟩

/-- A medium the waves of which can be computed has a positive permittivity. -/
theorem V_float_pos {l : TLattice} {wl e : ℝ} {kp : ℂ × ℂ} {V : Matrix (TIdx l.shape) (TIdx l.shape) ℂ}
    (h : l.V (.float e) wl kp = .ok V) : 0 < e ∧ wl ≠ 0 := by
  simp only [TLattice.V, bind_eq_ok, pyCheck_eq_ok, matrixV, npSqrt] at h
  obtain ⟨_, ⟨h1, h2⟩, r, hr, -⟩ := h
  split_ifs at hr with h3
  refine ⟨lt_of_le_of_ne (not_lt.1 h3) ?_, h1⟩
  rintro rfl
  exact h2 (by simp [PyNum.val, csqrt_zero])

theorem kplanar_real {e wl theta phi : ℝ} (he : 0 < e) {kp : ℂ × ℂ} (h : computeKplanar (e : ℂ) wl theta phi = .ok kp) :
    kp = (((Real.sqrt e * (2 * Real.pi / wl) * Real.sin (theta * (Real.pi / 180)) * Real.cos (phi * (Real.pi / 180)) : ℝ) : ℂ),
      ((Real.sqrt e * (2 * Real.pi / wl) * Real.sin (theta * (Real.pi / 180)) * Real.sin (phi * (Real.pi / 180)) : ℝ) : ℂ)) := by
  unfold computeKplanar at h
  by_cases hw : wl = 0
  · simp [hw, throw, throwThe, MonadExceptOf.throw, bind, Except.bind] at h
  · simp only [hw, if_false, pure, Except.pure, bind, Except.bind, Except.ok.injEq, csqrt_pos he] at h
    rw [← h]
    simp only [Complex.ofReal_mul, Complex.ofReal_div, Complex.ofReal_ofNat]
    ext1 <;> simp only <;> ring

/-- What `compute_fluxes` returns, without its constants. -/
theorem TLattice.fluxes_ratio {l : TLattice} {wl ee : ℝ} (he : l.epsE.val = ee) (hI : l.NonGrazing l.epsI wl (0, 0))
    (hE : l.NonGrazing l.epsE wl (0, 0)) {pin pout : TIdx l.shape → ℂ} {kp : ℂ × ℂ} {R T A : ℝ}
    (h : computeFluxes l wl pin pout kp = .ok (R, T, A)) :
    0 < l.cur l.epsI wl (0, 0) (fun k => ‖pin (.inl (.inl k))‖ ^ 2 + ‖pin (.inl (.inr k))‖ ^ 2) ∧
    R = l.cur l.epsI wl (0, 0) (fun k => ‖pout (.inr (.inl k))‖ ^ 2 + ‖pout (.inr (.inr k))‖ ^ 2) /
      l.cur l.epsI wl (0, 0) (fun k => ‖pin (.inl (.inl k))‖ ^ 2 + ‖pin (.inl (.inr k))‖ ^ 2) ∧
    T = l.cur l.epsE wl (0, 0) (fun k => ‖pout (.inl (.inl k))‖ ^ 2 + ‖pout (.inl (.inr k))‖ ^ 2) /
      l.cur l.epsI wl (0, 0) (fun k => ‖pin (.inl (.inl k))‖ ^ 2 + ‖pin (.inl (.inr k))‖ ^ 2) ∧ A = 1 - R - T := by
  obtain ⟨h0, hR, hT, hA⟩ := fluxes_eq h
  obtain ⟨c1, c2, c3⟩ := currents_eq (pin := pin) (psca := pout) (0, 0) hI hE (by rw [he]; simp)
  set X := l.cur l.epsI wl (0, 0) fun k => ‖pin (.inl (.inl k))‖ ^ 2 + ‖pin (.inl (.inr k))‖ ^ 2 with hX
  set Y := l.cur l.epsI wl (0, 0) fun k => ‖pout (.inr (.inl k))‖ ^ 2 + ‖pout (.inr (.inr k))‖ ^ 2 with hY
  set Z := l.cur l.epsE wl (0, 0) fun k => ‖pout (.inl (.inl k))‖ ^ 2 + ‖pout (.inl (.inr k))‖ ^ 2 with hZ
  have hX0 : 0 ≤ X := cur_nonneg _ _ _ _ fun k => by positivity
  have hY0 : 0 ≤ Y := cur_nonneg _ _ _ _ fun k => by positivity
  have hZ0 : 0 ≤ Z := cur_nonneg _ _ _ _ fun k => by positivity
  rw [c1] at h0
  have hq : ((l.area / (2 * mu0c * (2 * Real.pi) / wl) : ℝ) : ℂ) ≠ 0 := left_ne_zero_of_mul h0
  have hXne : X ≠ 0 := fun h => h0 (by rw [h]; simp)
  refine ⟨lt_of_le_of_ne hX0 hXne.symm, ?_, ?_, hA⟩
  · rw [hR, c1, c2, mul_div_mul_left _ _ hq, ← ofReal_div, Complex.norm_real, Real.norm_of_nonneg (div_nonneg hY0 hX0)]
  · rw [hT, c1, c3, mul_div_mul_left _ _ hq, ← ofReal_div, Complex.norm_real, Real.norm_of_nonneg (div_nonneg hZ0 hX0)]

/-- The device is lossless when all materials are real numbers, as they are in projects. -/
theorem layerFields_power {jv1 : ℝ → ℝ} {cfg : EzConfig} {l : TLattice} {wl a b : ℝ} (hw : wl ≠ 0) {x : String}
    {F G : TIdx l.shape → ℂ} (h : cfg.LayerFields jv1 l wl (↑a, ↑b) x F G) : TPower F = TPower G := by
  obtain ⟨ly, islands, host, f, -, ⟨⟨e, -, rfl⟩, hisl⟩, hf, rfl, rfl⟩ := h
  have hk : 2 * Real.pi / wl ≠ 0 := div_ne_zero (by positivity) hw
  rw [tmaxwell_iff hk] at hf
  have hi : ∀ d ∈ islands, d.2.im = 0 := by
    clear hf
    generalize ly.geometry = gs at hisl
    induction hisl with
    | nil => simp
    | cons h1 _ ih =>
      obtain ⟨-, e', -, he'⟩ := h1
      intro d hd
      rcases List.mem_cons.1 hd with rfl | hd
      · rw [he', ofReal_im]
      · exact ih d hd
  have hinv : ∀ z : ℂ, z.im = 0 → (1 / z).im = 0 := by
    intro z hz
    rw [one_div, inv_im, hz]; simp
  refine tpower_const (v := fun k => (a + flatT l.shape l.gx k, b + flatT l.shape l.gy k)) (k0 := 2 * Real.pi / wl)
    (TLattice.coupling_herm (jv1 := jv1) islands e id (ofReal_im e) hi)
    (TLattice.coupling_herm (jv1 := jv1) islands e (1 / ·) (hinv _ (ofReal_im e)) fun d hd => hinv _ (hi d hd)) ?_ 0 _
  intro z i
  have : (fun k => (((a + flatT l.shape l.gx k : ℝ) : ℂ), ((b + flatT l.shape l.gy k : ℝ) : ℂ))) = l.wave (↑a, ↑b) := by
    funext k; rw [TLattice.wave]; push_cast; rfl
  simp only [this]
  exact hf z i

theorem relChain_invariant {α V : Type} {R : α → V → V → Prop} {φ : V → ℝ} (h : ∀ x u v, R x u v → φ u = φ v) :
    ∀ {L : List α} {u w : V}, RelChain R L u w → φ u = φ w
  | [], _, _, e => congrArg φ e
  | x :: _, _, _, ⟨v, h1, h2⟩ => (h x _ v h1).trans (relChain_invariant h h2)

/-- Light enters from the left only. -/
theorem tscatters_left {n : Type} [Fintype n] [DecidableEq n] {S : Matrix (n ⊕ n) (n ⊕ n) ℂ} {pin : n ⊕ n → ℂ}
    (h : ∀ i, pin (.inr i) = 0) (pout : n ⊕ n → ℂ) :
    TScatters S (Sum.elim (pin ∘ Sum.inl) (pout ∘ Sum.inr)) (Sum.elim (pout ∘ Sum.inl) 0) ↔ pout = S *ᵥ pin := by
  have e : Sum.elim (pin ∘ Sum.inl) (0 : n → ℂ) = pin := by
    funext i
    rcases i with i | i
    · rfl
    · exact (h i).symm
  unfold TScatters
  rw [Sum.elim_comp_inl, Sum.elim_comp_inr, Sum.elim_comp_inl, Sum.elim_comp_inr, Sum.elim_comp_inl_inr, e]

namespace TLattice
variable {l : TLattice} {wl : ℝ}

/-- A grid that `pin` fits. -/
theorem fit_shape {pw : ℕ × ℕ} {a1 a2 : R2} {ei ee : PyNum} (h : TLattice.make pw a1 a2 ei ee = .ok l)
    (hs : l.shape.1 * l.shape.2 = pw.1 * pw.2) (hlt : pw.1 / 2 + pw.1 * (pw.2 / 2) < pw.1 * pw.2) :
    l.shape = pw ∧ 0 < pw.1 ∧ (pw.1 = pw.2 ∨ pw.2 = 1) := by
  have h1 : l.shape.1 = pw.1 := by rw [make_shape h]
  have hpos : 0 < pw.1 * pw.2 := by omega
  have h0 : 0 < pw.1 := Nat.pos_of_mul_pos_right hpos
  have h0' : 0 < pw.2 := Nat.pos_of_mul_pos_left hpos
  have e : l.shape = pw := by
    refine Prod.ext h1 (Nat.eq_of_mul_eq_mul_left h0 ?_)
    rw [h1] at hs
    exact hs
  refine ⟨e, h0, ?_⟩
  rcases (make_shape_iff h h0).1 e with h2 | h2
  · exact Or.inl h2
  · exact Or.inr (by omega)

/-- The specular order. -/
theorem specular {pw : ℕ × ℕ} {a1 a2 : R2} {ei ee : PyNum} (h : TLattice.make pw a1 a2 ei ee = .ok l) (hs : l.shape = pw)
    (hlt : pw.1 / 2 + pw.1 * (pw.2 / 2) < pw.1 * pw.2) : ∃ k0 : Fin (l.shape.1 * l.shape.2),
      (k0 : ℕ) = pw.1 / 2 + pw.1 * (pw.2 / 2) ∧ flatT l.shape l.gx k0 = 0 ∧ flatT l.shape l.gy k0 = 0 := by
  have hpos : 0 < pw.1 := Nat.pos_of_mul_pos_right (show 0 < pw.1 * pw.2 by omega)
  refine ⟨⟨pw.1 / 2 + pw.1 * (pw.2 / 2), by rw [hs]; exact hlt⟩, rfl, ?_⟩
  have e1 : (pw.1 / 2 + pw.1 * (pw.2 / 2)) % pw.1 = pw.1 / 2 := by
    rw [Nat.add_mul_mod_self_left, Nat.mod_eq_of_lt (by omega)]
  have e2 : (pw.1 / 2 + pw.1 * (pw.2 / 2)) / pw.1 = pw.2 / 2 := by
    rw [Nat.add_mul_div_left _ _ hpos, Nat.div_eq_of_lt (by omega), zero_add]
  have s1 : l.shape.1 = pw.1 := by rw [hs]
  simp only [flatT, s1, e1, e2, (make_gx h _ _).1, (make_gx h _ _).2]
  simp

/-- Its normal wave number at normal incidence. -/
theorem specular_kz {eps : PyNum} {r : ℝ} (he : eps.val = r) (hr : 0 < r) (hw : 0 < wl) {k0 : Fin (l.shape.1 * l.shape.2)}
    (hx : flatT l.shape l.gx k0 = 0) (hy : flatT l.shape l.gy k0 = 0) :
    flatT l.shape (l.kz eps wl (0, 0)) k0 = ((Real.sqrt r * (2 * Real.pi / wl) : ℝ) : ℂ) := by
  have hpi := Real.pi_pos
  have hpos : 0 < Real.sqrt r * (2 * Real.pi / wl) := mul_pos (Real.sqrt_pos.2 hr) (by positivity)
  simp only [flatT] at hx hy
  have hz2 := computeKz_sq (l.gx (k0 % l.shape.1) (k0 / l.shape.1)) (l.gy (k0 % l.shape.1) (k0 / l.shape.1)) eps.val wl (0, 0)
  have hb := computeKz_branch (l.gx (k0 % l.shape.1) (k0 / l.shape.1)) (l.gy (k0 % l.shape.1) (k0 / l.shape.1)) eps.val wl (0, 0)
  change flatT l.shape (l.kz eps wl (0, 0)) k0 ^ 2 = _ at hz2
  change 0 ≤ (flatT l.shape (l.kz eps wl (0, 0)) k0).im ∧ _ at hb
  set z := flatT l.shape (l.kz eps wl (0, 0)) k0 with hz
  have hu : uNorm ((0 : ℂ) + (l.gx (k0 % l.shape.1) (k0 / l.shape.1) : ℝ), (0 : ℂ) + (l.gy (k0 % l.shape.1) (k0 / l.shape.1) : ℝ)) = 0 := by
    rw [hx, hy]; simp [uNorm]
  simp only [hu, he] at hz2
  have e : (z - ((Real.sqrt r * (2 * Real.pi / wl) : ℝ) : ℂ)) * (z + ((Real.sqrt r * (2 * Real.pi / wl) : ℝ) : ℂ)) = 0 := by
    have : ((Real.sqrt r : ℝ) : ℂ) ^ 2 = r := by rw [← ofReal_pow, Real.sq_sqrt hr.le]
    push_cast
    push_cast at hz2
    linear_combination hz2 - (2 * (Real.pi : ℂ) / wl) ^ 2 * this
  rcases mul_eq_zero.1 e with e | e
  · exact sub_eq_zero.1 e
  · have e' : z = ((-(Real.sqrt r * (2 * Real.pi / wl)) : ℝ) : ℂ) := by rw [eq_neg_of_add_eq_zero_left e]; push_cast; ring
    have h1 : z.im = 0 := by rw [e', ofReal_im]
    have h2 : 0 ≤ z.re := hb.2 h1
    rw [e', ofReal_re] at h2
    linarith

/-- The fluxes of waves in the specular order only. -/
theorem fluxes_specular {pw : ℕ × ℕ} {a1 a2 : R2} {ei ee : PyNum} (h : TLattice.make pw a1 a2 ei ee = .ok l) (hw : 0 < wl)
    {rE : ℝ} (he : l.epsE.val = rE) {k0 : Fin (l.shape.1 * l.shape.2)} {κI κE : ℝ} (hκI : 0 < κI) (hκE : 0 < κE)
    (hI : flatT l.shape (l.kz l.epsI wl (0, 0)) k0 = κI) (hE : flatT l.shape (l.kz l.epsE wl (0, 0)) k0 = κE)
    {pin pout : TIdx l.shape → ℂ}
    (h1 : ∀ k, k ≠ k0 → pin (.inl (.inl k)) = 0 ∧ pin (.inl (.inr k)) = 0)
    (h2 : ∀ k, k ≠ k0 → pout (.inl (.inl k)) = 0 ∧ pout (.inl (.inr k)) = 0 ∧ pout (.inr (.inl k)) = 0 ∧ pout (.inr (.inr k)) = 0)
    {X Y Z : ℝ} (hX : X = ‖pin (.inl (.inl k0))‖ ^ 2 + ‖pin (.inl (.inr k0))‖ ^ 2) (hX0 : X ≠ 0)
    (hY : Y = ‖pout (.inr (.inl k0))‖ ^ 2 + ‖pout (.inr (.inr k0))‖ ^ 2)
    (hZ : Z = ‖pout (.inl (.inl k0))‖ ^ 2 + ‖pout (.inl (.inr k0))‖ ^ 2) (kp : ℂ × ℂ) :
    computeFluxes l wl pin pout kp = .ok (Y / X, κE * Z / (κI * X), 1 - Y / X - κE * Z / (κI * X)) := by
  have fe := floatEps_pos
  have hmu := mu0c_pos
  have hpi := Real.pi_pos
  have harea : 0 < l.area := by
    obtain ⟨-, -, hb, har, -⟩ := make_fields h
    rw [har, unitCellArea]
    exact abs_pos.2 (reciproc_eq_ok.1 hb).1
  have hX1 : 0 < X := lt_of_le_of_ne (by rw [hX]; positivity) (Ne.symm hX0)
  have hY1 : 0 ≤ Y := by rw [hY]; positivity
  have hZ1 : 0 ≤ Z := by rw [hZ]; positivity
  set q : ℝ := l.area / (2 * mu0c * (2 * Real.pi) / wl) with hq
  have hq0 : 0 < q := by positivity
  have s1 : ∑ k, (computeCurrents l wl pin pout (0, 0)).1 k = ((q * κI * X : ℝ) : ℂ) := by
    rw [Finset.sum_eq_single k0]
    · simp only [computeCurrents, hI, ofReal_im, abs_zero, fe.le, if_true, ← hX]
      rw [← hq, ofReal_mul, ofReal_mul]
    · intro k _ hk
      simp [computeCurrents, h1 k hk]
    · intro hk; exact absurd (Finset.mem_univ _) hk
  have s2 : ∑ k, (computeCurrents l wl pin pout (0, 0)).2.1 k = ((q * κI * Y : ℝ) : ℂ) := by
    rw [Finset.sum_eq_single k0]
    · simp only [computeCurrents, hI, ofReal_im, abs_zero, fe.le, if_true, ← hY]
      rw [← hq, ofReal_mul, ofReal_mul]
    · intro k _ hk
      simp [computeCurrents, h2 k hk]
    · intro hk; exact absurd (Finset.mem_univ _) hk
  have s3 : ∑ k, (computeCurrents l wl pin pout (0, 0)).2.2 k = ((q * κE * Z : ℝ) : ℂ) := by
    rw [Finset.sum_eq_single k0]
    · simp only [computeCurrents, hE, he, ofReal_im, abs_zero, fe, and_self, if_true, ← hZ]
      rw [← hq, ofReal_mul, ofReal_mul]
    · intro k _ hk
      simp [computeCurrents, h2 k hk]
    · intro hk; exact absurd (Finset.mem_univ _) hk
  unfold computeFluxes
  rcases hcc : computeCurrents l wl pin pout (0, 0) with ⟨j1, j2, j3⟩
  rw [hcc] at s1 s2 s3
  simp only at s1 s2 s3 ⊢
  rw [pyCheck_ok hw.ne', ok_bind, pyCheck_ok (by rw [s1]; exact_mod_cast (by positivity : q * κI * X ≠ 0)), ok_bind, s1, s2, s3,
    ← ofReal_div, ← ofReal_div, Complex.norm_real, Complex.norm_real, Real.norm_of_nonneg (by positivity),
    Real.norm_of_nonneg (by positivity)]
  have e1 : q * κI * Y / (q * κI * X) = Y / X := mul_div_mul_left _ _ (by positivity)
  have e2 : q * κE * Z / (q * κI * X) = κE * Z / (κI * X) := by
    rw [mul_assoc, mul_assoc, mul_div_mul_left _ _ hq0.ne']
  rw [e1, e2]
  rfl

end TLattice

end Khepri
