import Verif.Lemmas.ExampleEmpty
import Verif.Lemmas.ExamplePlate
import Verif.Lemmas.ExampleTwisted
import Verif.Lemmas.Symmetry

/-! Devices of one layer in vacuum, for any expansion and any wave vector. -/

set_option linter.unusedSectionVars false

namespace Khepri

open Matrix

variable {N : ℕ}

/-- A crystal in vacuum with one layer, "a". -/
noncomputable def oneLayer (e : Expansion N) (f : Form) (d : ℝ) : Crystal N :=
  { expansion := e,
    layers := fun x => if x = "a" then some (.plain { expansion := e, form := f, depth := d }) else none }

theorem oneLayer_fresh (e : Expansion N) {f : Form} (hf : f.isLayer) (d : ℝ) (b : Bool) :
    FreshDevice (oneLayer e f d) ["a"] (.inl b) [{ expansion := e, form := f, depth := d }]
      ((1 : ℝ) : ℂ) ((1 : ℝ) : ℂ) where
  void := rfl
  epsi := by simp [oneLayer]
  epse := by simp [oneLayer]
  noRef := by simp [oneLayer]
  noTrans := by simp [oneLayer]
  layers := .cons ⟨by simp [oneLayer], hf, rfl⟩ .nil
  mask := by simp

theorem vacuum_halves (lib : NumLib) (e : Expansion N) {wl : ℝ} (hwl : wl ≠ 0) (kp : R2)
    (hg : ∀ i, 1 - orderKx e kp wl i ^ 2 - orderKy e kp wl i ^ 2 ≠ 0) : ∃ r : Solved N,
    (Form.halfInc 1).solve lib e 0 ((kp.1 : ℂ), (kp.2 : ℂ)) wl = .ok r ∧
    (Form.halfTrn 1).solve lib e 0 ((kp.1 : ℂ), (kp.2 : ℂ)) wl = .ok r ∧ r.S = scatteringIdentity _ ∧ r.W = 1 ∧
      r.L = stack2 fun i => Complex.I * outerKz (1 - orderKx e kp wl i ^ 2 - orderKy e kp wl i ^ 2) := by
  have hk : ∃ kz, e.kVectors ((kp.1 : ℂ), (kp.2 : ℂ)) wl 1 =
      .ok ((fun i => ((orderKx e kp wl i : ℝ) : ℂ)), (fun i => ((orderKy e kp wl i : ℝ) : ℂ)), kz) := by
    refine ⟨_, kVectors_eq_ok.2 ⟨hwl, ?_, ?_, rfl⟩⟩
    · funext i; simp [orderKx]
    · funext i; simp [orderKy]
  obtain ⟨kz, hk⟩ := hk
  obtain ⟨V, hV0, hVd, hV⟩ := vacuum_halfSpace hg
  refine ⟨⟨1, V, stack2 fun i => Complex.I * outerKz (1 - orderKx e kp wl i ^ 2 - orderKy e kp wl i ^ 2),
    scatteringIdentity _, .num 1⟩, ?_, ?_, rfl, rfl, rfl⟩
  · simp only [Form.solve, hk, ok_bind, hV0, scatteringReflection, hV, matched_reflection hVd]
    simp [inverseEps, ok_bind, pure, Except.pure]
  · simp only [Form.solve, hk, ok_bind, hV0, scatteringTransmission, hV, matched_transmission hVd]
    simp [inverseEps, ok_bind, pure, Except.pure]

theorem flux_exists (e : Expansion N) {wl : ℝ} (hwl : 0 < wl) (kp : R2)
    (hg : ∀ i, 1 - orderKx e kp wl i ^ 2 - orderKy e kp wl i ^ 2 ≠ 0)
    (hp : 0 < 1 - (kp.1 / (2 * Real.pi / wl)) ^ 2 - (kp.2 / (2 * Real.pi / wl)) ^ 2) (v : Vec2 N) :
    ∃ r, poyntingFluxes e v ((kp.1 : ℂ), (kp.2 : ℂ)) wl 1 1 = .ok r := by
  have hk0 : 0 < 2 * Real.pi / wl := by have := Real.pi_pos; positivity
  have hkc : ((2 * Real.pi / wl : ℝ) : ℂ) ≠ 0 := by exact_mod_cast hk0.ne'
  have key : ∀ (F : ℝ × (Fin N → ℝ) → Prop) (g : Fin N → ℝ), (∀ r, r.2 = g → r.1 = ∑ i, r.2 i → F r) →
      ∃ r, F r := fun F g h => ⟨(∑ i, g i, g), h _ rfl rfl⟩
  have hz : ∀ x y : ℝ, star (csqrt (((2 * Real.pi / wl : ℝ) : ℂ) ^ 2 * 1 - (x : ℂ) ^ 2 - (y : ℂ) ^ 2)) =
      ((2 * Real.pi / wl : ℝ) : ℂ) * outerKz (1 - (x / (2 * Real.pi / wl)) ^ 2 - (y / (2 * Real.pi / wl)) ^ 2) := by
    intro x y
    rw [← outerKz_mul_sq hk0, ← star_csqrt_ofReal]
    congr 2
    generalize 2 * Real.pi / wl = k0 at *
    push_cast
    field_simp
  refine key _ _ fun r e2 e1 => poyntingFluxes_eq_ok.2 ⟨hwl.ne', _, _, _, kVectors_eq_ok.2 ⟨hwl.ne', rfl, rfl, rfl⟩,
    fun i => ?_, ?_, e2, e1⟩
  · have := hz (kp.1 + (e.g i).1) (kp.2 + (e.g i).2)
    push_cast at this
    simp only [kzFromKplanar, star_one]
    push_cast
    rw [this]
    have hkc' : (2 : ℂ) * Real.pi / wl ≠ 0 := by simpa using hkc
    refine div_ne_zero (mul_ne_zero hkc' ?_) hkc'
    exact outerKz_eq_zero.not.2 (by have := hg i; simpa only [orderKx, orderKy] using this)
  · rw [hz, mul_div_cancel_left₀ _ hkc, outerKz_pos hp, Complex.ofReal_re]
    exact (Real.sqrt_pos.2 hp).ne'

/-- Everything runs for a layer in vacuum that can be solved. -/
theorem oneLayer_run (lib : NumLib) (e : Expansion N) {wl : ℝ} (hwl : 0 < wl) {kp : R2}
    (hg : ∀ i, 1 - orderKx e kp wl i ^ 2 - orderKy e kp wl i ^ 2 ≠ 0) (te tm : ℂ) {theta phi : ℝ}
    {kpo : Option (ℂ × ℂ)} (hkp : Crystal.orDefault kpo (computeKplanar 1 wl theta phi) = .ok ((kp.1 : ℂ), (kp.2 : ℂ)))
    {f : Form} (hf : f.isLayer) {d : ℝ} {r : Solved N} (hr : f.solve lib e d ((kp.1 : ℂ), (kp.2 : ℂ)) wl = .ok r)
    (b : Bool) : ∃ c3 st,
    DeviceRun lib (oneLayer e f d) ["a"] (.inl b) [{ expansion := e, form := f, depth := d }] 1 1 wl te tm theta phi
      kpo kp c3 ∧ c3.stacked = some st ∧ st.Stot = r.S ∧
    (0 < N → polNorm te tm ≠ 0 →
      0 < 1 - (kp.1 / (2 * Real.pi / wl)) ^ 2 - (kp.2 / (2 * Real.pi / wl)) ^ 2 →
      (kp.1 = 0 ∧ kp.2 = 0) ∨ (1 / 10 ^ 8) ^ 2 ≤ kp.1 ^ 2 + kp.2 ^ 2 → ∃ fl, c3.poyntingFluxEnd = .ok fl) := by
  have hfr := oneLayer_fresh e hf d b
  obtain ⟨c1, h1, hd, hexp, -, hi, hie⟩ := Crystal.setDevice_standard (m := .inl b) hfr.void hfr.noRef
    hfr.noTrans hfr.layers (by simp [Crystal.maskList])
  have hi1 : c1.epsi = 1 := by rw [hi]; rfl
  have hie1 : c1.epse = 1 := by rw [hie]; rfl
  set kzi := star (csqrt (((2 * Real.pi / wl : ℝ) : ℂ) ^ 2 * 1 - (kp.1 : ℂ) ^ 2 - (kp.2 : ℂ) ^ 2)) with hkzi
  have h2 : c1.setSource wl te tm theta phi kpo =
      .ok { c1 with source := some ⟨te, tm, theta, phi, wl, ((kp.1 : ℂ), (kp.2 : ℂ)), kzi⟩ } := by
    refine Crystal.setSource_eq_ok.2 ⟨hwl.ne', _, by rw [hi1]; exact hkp, ?_⟩
    simp only [hi1, hkzi]
  have hds : ∀ src, StandardDevice { c1 with source := src } ["a"] _ _ _ _ _ _ := fun src =>
      ⟨hd.void, hd.device, hd.stacking, hd.retain, hd.mask_len, hd.ref, hd.ref_form, hd.ref_exp,
        hd.ref_depth, hd.ref_fields, hd.trans, hd.trans_form, hd.trans_exp, hd.trans_depth,
        hd.trans_fields, hd.layers⟩
  have hd2 := hds (some ⟨te, tm, theta, phi, wl, ((kp.1 : ℂ), (kp.2 : ℂ)), kzi⟩)
  have ho : SetOrder ("Sref" :: (["a"] ++ ["Strans"])) ["Sref", "a", "Strans"] := ⟨by decide, fun x => by simp⟩
  obtain ⟨rv, hv1, hv2, hvS, hvW, -⟩ := vacuum_halves lib e hwl.ne' kp hg
  have hst : ∃ st, stackLayers [rv.S, r.S, rv.S] (true :: (Crystal.maskList ["a"] (.inl b) ++ [true])) = .ok st ∧
      st.Stot = r.S := by
    rw [hvS]
    refine (stackLayers_exists (by simp [Crystal.maskList]) _).2 ⟨?_, ?_⟩
    · simp only [leftFold, redheffer_id_left, redheffer_id_right, ok_bind]
    · simp only [List.reverse_cons, List.reverse_nil, List.nil_append, List.cons_append, revFold,
        redheffer_id_left, redheffer_id_right, ok_bind]
  obtain ⟨st, hst, hS⟩ := hst
  have hx : Crystal.expansion { c1 with source := some ⟨te, tm, theta, phi, wl, ((kp.1 : ℂ), (kp.2 : ℂ)), kzi⟩ } = e :=
    hexp
  obtain ⟨c3, h3, e1, e2, e3, e4, e5, e6⟩ := hd2.solve_exists (lib := lib) ho
    (src := ⟨te, tm, theta, phi, wl, ((kp.1 : ℂ), (kp.2 : ℂ)), kzi⟩) rfl
    (rr := rv) (rt := rv) (rs := [r]) (st := st)
    (by rw [hx]; simpa [oneLayer] using hv1)
    (by rw [hx]; exact .cons hr .nil)
    (by rw [hx]; simpa [oneLayer] using hv2)
    hst
  refine ⟨c3, st, ⟨hfr, c1, _, _, _, h1, h2, ho, h3, rfl, rfl⟩, e1, hS, fun hN hpn hpos hcut => ?_⟩
  have hk0 : 0 < 2 * Real.pi / wl := by have := Real.pi_pos; positivity
  have hcs : c3.source = some ⟨te, tm, theta, phi, wl, ((kp.1 : ℂ), (kp.2 : ℂ)), kzi⟩ := by rw [e6]
  have hce : c3.expansion = e := by rw [e6]; exact hexp
  have hci : c3.epsi = 1 := by rw [e6]; exact hi1
  have hcx : c3.epse = 1 := by rw [e6]; exact hie1
  have hinc : ∃ inc : Vec2 N, incident N te tm ⟨kp.1, kp.2, kzi⟩ = .ok inc := by
    have hz : kzi = ((2 * Real.pi / wl * Real.sqrt (1 - (kp.1 / (2 * Real.pi / wl)) ^ 2 - (kp.2 / (2 * Real.pi / wl)) ^ 2) : ℝ) : ℂ) := by
      have : ((2 * Real.pi / wl : ℝ) : ℂ) ^ 2 * 1 - (kp.1 : ℂ) ^ 2 - (kp.2 : ℂ) ^ 2 =
          (((2 * Real.pi / wl) ^ 2 * (1 - (kp.1 / (2 * Real.pi / wl)) ^ 2 - (kp.2 / (2 * Real.pi / wl)) ^ 2) : ℝ) : ℂ) := by
        have hkc : ((2 * Real.pi / wl : ℝ) : ℂ) ≠ 0 := by exact_mod_cast hk0.ne'
        generalize 2 * Real.pi / wl = k0 at *
        push_cast
        field_simp
      rw [hkzi, this, star_csqrt_ofReal, outerKz_mul_sq hk0, outerKz_pos hpos, Complex.ofReal_mul]
    rcases hcut with ⟨z1, z2⟩ | hcut
    · exact ⟨_, incident_eq_ok.2 ⟨hN, hpn, _, _, polarisations_small (by simp [z1, z2]), rfl⟩⟩
    · rw [hz]
      have hs : Real.sqrt (kp.1 ^ 2 + kp.2 ^ 2) ^ 2 = kp.1 ^ 2 + kp.2 ^ 2 := Real.sq_sqrt (by positivity)
      have hs0 : 1 / 10 ^ 8 ≤ Real.sqrt (kp.1 ^ 2 + kp.2 ^ 2) := by
        rw [← Real.sqrt_sq (show (0 : ℝ) ≤ 1 / 10 ^ 8 by positivity)]
        exact Real.sqrt_le_sqrt hcut
      have hs1 : 0 < Real.sqrt (kp.1 ^ 2 + kp.2 ^ 2) := lt_of_lt_of_le (by positivity) hs0
      refine ⟨_, incident_eq_ok.2 ⟨hN, hpn, _, _, polarisations_large hs hs0
        (K := Real.sqrt (Real.sqrt (kp.1 ^ 2 + kp.2 ^ 2) ^ 2 + (2 * Real.pi / wl * Real.sqrt (1 - (kp.1 / (2 * Real.pi / wl)) ^ 2 - (kp.2 / (2 * Real.pi / wl)) ^ 2)) ^ 2))
        (Real.sq_sqrt (by positivity)) (Real.sqrt_pos.2 (by positivity)), rfl⟩⟩
  obtain ⟨inc, hinc⟩ := hinc
  obtain ⟨T, hT⟩ := flux_exists e hwl kp hg hpos ((1 * st.Stot.s21) *ᵥ ((1 : Mat2 N)⁻¹ *ᵥ inc))
  obtain ⟨R, hR⟩ := flux_exists e hwl kp hg hpos ((1 * st.Stot.s11) *ᵥ ((1 : Mat2 N)⁻¹ *ᵥ inc))
  refine ⟨_, Crystal.poyntingFluxEnd_eq_ok.2
    ⟨st, _, inc, _, _, 1, 1, T, R, e1, hcs, hinc, e2, ?_, by simp, e4, ?_, ?_, ?_, rfl⟩⟩
  · simp [AnyLayer.W, Layer.store, hvW]
  · simp [AnyLayer.W, Layer.store, hvW]
  · rw [hce, hci, hcx]; exact hT
  · rw [hce, hci]; exact hR

/-- Orders of a square lattice at half the Bragg angle: none is grazing, whatever their number. -/
theorem halfBragg {pw : ℕ × ℕ} {tag : ℕ} {s : ℝ} (hs : 0 < s) {e : Expansion (pw.1 * pw.2)}
    (he : Expansion.make tag pw ((s, 0), (0, s)) = .ok e) (i : Fin (pw.1 * pw.2)) :
    1 - orderKx e (Real.pi / 2 / s, 0) (2 * s) i ^ 2 - orderKy e (Real.pi / 2 / s, 0) (2 * s) i ^ 2 ≠ 0 := by
  obtain ⟨-, -, b, hb, rfl⟩ := make_eq_ok.1 he
  obtain ⟨-, rfl⟩ := reciproc_eq_ok.1 hb
  have hpi := Real.pi_pos
  simp only [orderKx, orderKy, latticeVec]
  generalize orderAt pw i = mn
  obtain ⟨a, b⟩ := mn
  have e1 : (Real.pi / 2 / s + (s * (2 * Real.pi / (s * s - 0 * 0)) * (a : ℝ) + -0 * (2 * Real.pi / (s * s - 0 * 0)) * (b : ℝ))) /
      (2 * Real.pi / (2 * s)) = 1 / 2 + 2 * a := by field_simp; ring
  have e2 : (0 + (-0 * (2 * Real.pi / (s * s - 0 * 0)) * (a : ℝ) + s * (2 * Real.pi / (s * s - 0 * 0)) * (b : ℝ))) /
      (2 * Real.pi / (2 * s)) = 2 * b := by field_simp; ring
  rw [e1, e2]
  intro h
  have h' : (4 : ℝ) = (1 + 4 * a) ^ 2 + 16 * b ^ 2 := by linarith [h]
  have h'' : (4 : ℤ) = (1 + 4 * a) ^ 2 + 16 * b ^ 2 := by exact_mod_cast h'
  have : (1 + 4 * a) ^ 2 + 16 * b ^ 2 = 1 + 4 * (2 * a + 4 * a ^ 2 + 4 * b ^ 2) := by ring
  omega

/-- A vacuum layer on any expansion, with a complete run. -/
theorem vacuum_run (lib : NumLib) (e : Expansion N) (hN : 0 < N) {wl : ℝ} (hwl : 0 < wl) {kp : R2}
    (hg : ∀ i, 1 - orderKx e kp wl i ^ 2 - orderKy e kp wl i ^ 2 ≠ 0) {te tm : ℂ} (hpn : polNorm te tm ≠ 0)
    {theta phi : ℝ} {kpo : Option (ℂ × ℂ)}
    (hkp : Crystal.orDefault kpo (computeKplanar 1 wl theta phi) = .ok ((kp.1 : ℂ), (kp.2 : ℂ)))
    (hpos : 0 < 1 - (kp.1 / (2 * Real.pi / wl)) ^ 2 - (kp.2 / (2 * Real.pi / wl)) ^ 2)
    (hcut : (kp.1 = 0 ∧ kp.2 = 0) ∨ (1 / 10 ^ 8) ^ 2 ≤ kp.1 ^ 2 + kp.2 ^ 2) (d : ℝ) : ∃ c3 fl,
    DeviceRun lib (oneLayer e (.uniform 1) d) ["a"] (.inl true) [{ expansion := e, form := .uniform 1, depth := d }]
      1 1 wl te tm theta phi kpo kp c3 ∧ c3.poyntingFluxEnd = .ok fl := by
  obtain ⟨r, hr⟩ := vacuum_solve lib e d ((kp.1 : ℂ), (kp.2 : ℂ)) hwl.ne' (fun i h => hg i (by
    have h2 : (((1 - orderKx e kp wl i ^ 2 - orderKy e kp wl i ^ 2 : ℝ)) : ℂ) = 0 := by
      rw [← h]; simp [orderKx, orderKy]
    exact_mod_cast h2))
  obtain ⟨c3, st, h1, -, -, h2⟩ := oneLayer_run lib e hwl hg te tm hkp (f := .uniform 1) (by simp [Form.isLayer]) hr true
  obtain ⟨fl, hfl⟩ := h2 hN hpn hpos hcut
  exact ⟨c3, fl, h1, hfl⟩

end Khepri
