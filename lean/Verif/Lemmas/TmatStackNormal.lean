import Verif.Lemmas.TmatStackFlux
import Verif.Lemmas.Flux

/-! Stacks of uniform layers of the T-matrix formulation: the consequences for amplitudes and powers. -/

set_option linter.unusedSectionVars false

namespace Khepri

open Matrix Complex

/-- At normal incidence the two polarisations are alike. -/
theorem layerKz_normal (eps : ℂ) : eps / layerKz 0 eps = layerKz 0 eps := by
  have h2 : layerKz 0 eps ^ 2 = eps := by
    have : layerKz 0 eps ^ 2 = eps - ((0 : ℝ) : ℂ) := csqrt_sq _
    simpa using this
  by_cases h : layerKz 0 eps = 0
  · rw [h] at h2 ⊢; simp
  · rw [div_eq_iff h, ← pow_two, h2]

theorem abeles_normal (k0 : ℝ) (data : List (ℂ × ℝ)) : abeles .tm 0 k0 data = abeles .te 0 k0 data := by
  simp only [abeles, Polarisation.admittance, layerKz_normal]

theorem outerAdmittance_normal (pol : Polarisation) {r : ℝ} (hr : 0 < r) : outerAdmittance pol 0 r = (Real.sqrt r : ℝ) := by
  have h0 : ((Real.sqrt r : ℝ) : ℂ) ≠ 0 := by exact_mod_cast (Real.sqrt_pos.2 hr).ne'
  cases pol
  · simp [outerAdmittance, Polarisation.admittance, outerKz_pos hr]
  · simp only [outerAdmittance, Polarisation.admittance, sub_zero, outerKz_pos hr]
    rw [div_eq_iff h0]
    exact_mod_cast (Real.mul_self_sqrt hr.le).symm

theorem reflection_normal (k0 : ℝ) (data : List (ℂ × ℝ)) {er et : ℝ} (hr : 0 < er) (ht : 0 < et) :
    reflection .tm 0 k0 data er et = reflection .te 0 k0 data er et ∧
    transmission .tm 0 k0 data er et = transmission .te 0 k0 data er et := by
  simp only [reflection, transmission, stackDenominator, stackFields, abeles_normal, outerAdmittance_normal _ hr,
    outerAdmittance_normal _ ht, and_self]

namespace TLattice
variable {pw : ℕ × ℕ} {a1 a2 : R2} {ei ee : PyNum} {l : TLattice} {jv1 : ℝ → ℝ} {wl : ℝ} {a b : ℝ} {rI rE : ℝ}

theorem rooted_of_real {eps : PyNum} {r : ℝ} (h : eps.val = r) (h0 : 0 < r) : Rooted eps := by
  cases eps with
  | float x =>
    have : x = r := by simpa [PyNum.val] using h
    exact this ▸ h0.le
  | complex z => trivial

/-- The coefficients of one order. -/
theorem stack_coefficients (h : TLattice.make pw a1 a2 ei ee = .ok l) (hs : l.shape = pw) (hI : l.epsI.val = rI)
    (hI0 : 0 < rI) (hE : l.epsE.val = rE) (hE0 : 0 < rE) (hw : 0 < wl) {data : List (ℂ × ℝ)}
    {S : Matrix (TIdx l.shape) (TIdx l.shape) ℂ} (hS : TStack jv1 l wl (↑a, ↑b) data S) {k : Fin (l.shape.1 * l.shape.2)}
    (hkE : flatT l.shape (l.kz l.epsE wl (↑a, ↑b)) k ≠ 0)
    (hc : l.wave (↑a, ↑b) k = 0 ∨ 1 / 2 ^ 52 ≤ uNorm (l.wave (↑a, ↑b) k) ^ 2)
    (hg : ∀ x ∈ data, x.1 ≠ l.inPlane wl (↑a, ↑b) k) :
    (∀ pol, stackDenominator pol (l.inPlane wl (↑a, ↑b) k) (2 * Real.pi / wl) (conjLayers data) rI rE ≠ 0) ∧
    ∀ p : TIdx l.shape → ℂ, (∀ i, p (.inr i) = 0) →
      (S *ᵥ p) (.inr (.inl k)) =
        star (reflection .te (l.inPlane wl (↑a, ↑b) k) (2 * Real.pi / wl) (conjLayers data) rI rE) * p (.inl (.inl k)) ∧
      (S *ᵥ p) (.inl (.inl k)) =
        star (transmission .te (l.inPlane wl (↑a, ↑b) k) (2 * Real.pi / wl) (conjLayers data) rI rE) * p (.inl (.inl k)) ∧
      (S *ᵥ p) (.inr (.inr k)) =
        -(star (reflection .tm (l.inPlane wl (↑a, ↑b) k) (2 * Real.pi / wl) (conjLayers data) rI rE) * p (.inl (.inr k))) ∧
      l.cosz l.epsE wl (↑a, ↑b) k * (S *ᵥ p) (.inl (.inr k)) =
        star (transmission .tm (l.inPlane wl (↑a, ↑b) k) (2 * Real.pi / wl) (conjLayers data) rI rE) *
          (l.cosz l.epsI wl (↑a, ↑b) k * p (.inl (.inr k))) := by
  have hIc : l.epsI.val ≠ 0 := by rw [hI]; exact_mod_cast hI0.ne'
  obtain ⟨-, hkI, Vi, Ve, hVi, hVe⟩ := stack_V hS hIc (rooted_of_real hI hI0)
  have hcI : l.cosz l.epsI wl (↑a, ↑b) k ≠ 0 := by
    rw [cosz]
    have := Real.pi_pos
    refine div_ne_zero (hkI k) (div_ne_zero (mul_ne_zero (V_ok hVi).2.1 ?_) ?_)
    · exact_mod_cast (by positivity : (2 * Real.pi : ℝ) ≠ 0)
    · exact_mod_cast hw.ne'
  have hD : ∀ pol, stackDenominator pol (l.inPlane wl (↑a, ↑b) k) (2 * Real.pi / wl) (conjLayers data) rI rE ≠ 0 := by
    intro pol h0
    obtain ⟨hη, h1, -⟩ := stack_order h hs hI hI0 hE hE0 hw hS hVi hVe (hkI k) hkE hc hg
      (p := Sum.elim (fun _ => 1) 0) (fun i => rfl) pol rfl rfl rfl
    rw [h0, star_zero, zero_mul] at h1
    have := (mul_eq_zero.1 h1.symm).resolve_left (mul_ne_zero two_ne_zero hη)
    cases pol with
    | te => exact one_ne_zero this
    | tm => simp only [Sum.elim_inl, mul_one, neg_eq_zero] at this; exact hcI this
  refine ⟨hD, fun p hp => ?_⟩
  have key := fun pol => stack_order h hs hI hI0 hE hE0 hw hS hVi hVe (hkI k) hkE hc hg hp pol rfl rfl rfl
  have hDs : ∀ pol, star (stackDenominator pol (l.inPlane wl (↑a, ↑b) k) (2 * Real.pi / wl) (conjLayers data) rI rE) ≠ 0 :=
    fun pol => star_ne_zero.2 (hD pol)
  have hr : ∀ pol, star (reflection pol (l.inPlane wl (↑a, ↑b) k) (2 * Real.pi / wl) (conjLayers data) rI rE) =
      (star (outerAdmittance pol (l.inPlane wl (↑a, ↑b) k) rI) *
        star (stackFields pol (l.inPlane wl (↑a, ↑b) k) (2 * Real.pi / wl) (conjLayers data) rE 0) -
        star (stackFields pol (l.inPlane wl (↑a, ↑b) k) (2 * Real.pi / wl) (conjLayers data) rE 1)) /
      star (stackDenominator pol (l.inPlane wl (↑a, ↑b) k) (2 * Real.pi / wl) (conjLayers data) rI rE) := by
    intro pol; simp [reflection]
  have ht : ∀ pol, star (transmission pol (l.inPlane wl (↑a, ↑b) k) (2 * Real.pi / wl) (conjLayers data) rI rE) =
      2 * star (outerAdmittance pol (l.inPlane wl (↑a, ↑b) k) rI) /
      star (stackDenominator pol (l.inPlane wl (↑a, ↑b) k) (2 * Real.pi / wl) (conjLayers data) rI rE) := by
    intro pol; simp [transmission]
  obtain ⟨-, t1, t2⟩ := key .te
  obtain ⟨-, m1, m2⟩ := key .tm
  simp only at t1 t2 m1 m2
  refine ⟨?_, ?_, ?_, ?_⟩
  · rw [hr, div_mul_eq_mul_div, eq_div_iff (hDs _), ← t2]; ring
  · rw [ht, div_mul_eq_mul_div, eq_div_iff (hDs _), ← t1]; ring
  · rw [hr, div_mul_eq_mul_div, ← neg_div, eq_div_iff (hDs _)]
    refine mul_left_cancel₀ hcI ?_
    linear_combination m2
  · rw [ht, div_mul_eq_mul_div, eq_div_iff (hDs _)]
    linear_combination -m1

theorem cascade_nonzero (h : TLattice.make pw a1 a2 ei ee = .ok l) (hs : l.shape = pw) {data : List (ℂ × ℝ)}
    {S : Matrix (TIdx l.shape) (TIdx l.shape) ℂ} (hS : TCascade jv1 l wl (↑a, ↑b) data S) : ∀ x ∈ data, x.1 ≠ 0 := by
  induction hS with
  | layer hu hS =>
    obtain ⟨-, -, -, -, -, hh, -, -⟩ := layer_S h hs hS
    simpa using hh
  | join _ _ hm ih1 ih2 =>
    intro x hx
    rcases List.mem_append.1 hx with hx | hx
    · exact ih1 x hx
    · exact ih2 x hx

theorem stack_nonzero (h : TLattice.make pw a1 a2 ei ee = .ok l) (hs : l.shape = pw) {data : List (ℂ × ℝ)}
    {S : Matrix (TIdx l.shape) (TIdx l.shape) ℂ} (hS : TStack jv1 l wl (↑a, ↑b) data S) : ∀ x ∈ data, x.1 ≠ 0 := by
  cases hS with
  | bare _ => simp
  | layers hA _ _ => exact cascade_nonzero h hs hA

/-- The powers at normal incidence. -/
theorem stack_fluxes (h : TLattice.make pw a1 a2 ei ee = .ok l) (hw : 0 < wl) (hI : l.epsI.val = rI) (hI0 : 0 < rI)
    (hE : l.epsE.val = rE) (hE0 : 0 < rE) {data : List (ℂ × ℝ)}
    {S : Matrix (TIdx l.shape) (TIdx l.shape) ℂ} (hS : TStack jv1 l wl (0, 0) data S) {s p : ℂ} (hsp : s ≠ 0 ∨ p ≠ 0)
    {pin0 : TIdx pw → ℂ} (h0 : tmatIncident pw 1 p s = .ok pin0) {pin : TIdx l.shape → ℂ} (h1 : fitVector pw l.shape pin0 = .ok pin)
    (kp : ℂ × ℂ) :
    computeFluxes l wl pin (S *ᵥ pin) kp =
      .ok (‖reflection .te 0 (2 * Real.pi / wl) (conjLayers data) rI rE‖ ^ 2,
        Real.sqrt rE / Real.sqrt rI * ‖transmission .te 0 (2 * Real.pi / wl) (conjLayers data) rI rE‖ ^ 2,
        1 - ‖reflection .te 0 (2 * Real.pi / wl) (conjLayers data) rI rE‖ ^ 2 -
          Real.sqrt rE / Real.sqrt rI * ‖transmission .te 0 (2 * Real.pi / wl) (conjLayers data) rI rE‖ ^ 2) := by
  have z0 : (((0 : ℝ) : ℂ), ((0 : ℝ) : ℂ)) = (0, 0) := by simp
  obtain ⟨hsz, hlt, p1, p2, p3⟩ := fitVector_eq_ok h0 h1
  obtain ⟨hsh, -, -⟩ := TLattice.fit_shape h hsz hlt
  obtain ⟨k0, hk0, gx0, gy0⟩ := TLattice.specular h hsh hlt
  have kI := TLattice.specular_kz hI hI0 hw gx0 gy0
  have kE := TLattice.specular_kz hE hE0 hw gx0 gy0
  have hpi := Real.pi_pos
  have sI := Real.sqrt_pos.2 hI0
  have sE := Real.sqrt_pos.2 hE0
  have hκ : 0 < 2 * Real.pi / wl := by positivity
  have hwave : l.wave (((0 : ℝ) : ℂ), ((0 : ℝ) : ℂ)) k0 = 0 := by
    simp [TLattice.wave, gx0, gy0]
  have hin : l.inPlane wl (((0 : ℝ) : ℂ), ((0 : ℝ) : ℂ)) k0 = 0 := by
    rw [inPlane, hwave]; simp
  rw [← z0] at hS
  have hkE : flatT l.shape (l.kz l.epsE wl (((0 : ℝ) : ℂ), ((0 : ℝ) : ℂ))) k0 ≠ 0 := by
    rw [z0, kE]; exact_mod_cast (mul_pos sE hκ).ne'
  obtain ⟨-, hc⟩ := stack_coefficients h hsh hI hI0 hE hE0 hw hS hkE (Or.inl hwave) (by
    rw [hin]; simpa using stack_nonzero h hsh hS)
  obtain ⟨c1, c2, c3, c4⟩ := hc pin p3
  rw [hin] at c1 c2 c3 c4
  rw [(reflection_normal _ _ hI0 hE0).1] at c3
  rw [(reflection_normal _ _ hI0 hE0).2] at c4
  have cosI : l.cosz l.epsI wl (((0 : ℝ) : ℂ), ((0 : ℝ) : ℂ)) k0 = 1 := by
    rw [cosz_outer hI hI0 hw, hin, sub_zero, outerKz_pos hI0]
    have : ((Real.sqrt rI : ℝ) : ℂ) ≠ 0 := by exact_mod_cast sI.ne'
    simp [this]
  have cosE : l.cosz l.epsE wl (((0 : ℝ) : ℂ), ((0 : ℝ) : ℂ)) k0 = 1 := by
    rw [cosz_outer hE hE0 hw, hin, sub_zero, outerKz_pos hE0]
    have : ((Real.sqrt rE : ℝ) : ℂ) ≠ 0 := by exact_mod_cast sE.ne'
    simp [this]
  rw [cosI, cosE, one_mul, one_mul] at c4
  have hne : ∀ k, k ≠ k0 → (k : ℕ) ≠ pw.1 / 2 + pw.1 * (pw.2 / 2) := fun k hk e => hk (Fin.ext (e.trans hk0.symm))
  have q1 : ∀ k, k ≠ k0 → pin (.inl (.inl k)) = 0 ∧ pin (.inl (.inr k)) = 0 := fun k hk => by
    rw [p1, p2, if_neg (hne k hk), if_neg (hne k hk)]; exact ⟨rfl, rfl⟩
  have q2 : pin (.inl (.inl k0)) = s ∧ pin (.inl (.inr k0)) = p := by
    rw [p1, p2, if_pos hk0, if_pos hk0]; exact ⟨rfl, rfl⟩
  have hIc : l.epsI.val ≠ 0 := by rw [hI]; exact_mod_cast hI0.ne'
  obtain ⟨-, -, Vi, Ve, hVi, hVe⟩ := stack_V hS hIc (rooted_of_real hI hI0)
  have q3 : ∀ k, k ≠ k0 → (S *ᵥ pin) (.inl (.inl k)) = 0 ∧ (S *ᵥ pin) (.inl (.inr k)) = 0 ∧ (S *ᵥ pin) (.inr (.inl k)) = 0 ∧
      (S *ᵥ pin) (.inr (.inr k)) = 0 := fun k hk => by
    have hw' := stack_weights h hsh hS hVi hVe (fun i => if i = k then 0 else 1) pin
    have hp : orderWeights (fun i => if i = k then (0 : ℂ) else 1) *ᵥ pin = pin := by
      funext i
      rw [orderWeights, mulVec_diagonal]
      rcases i with (i | i) | (i | i)
      · by_cases e : i = k
        · subst e; simp [(q1 i hk).1]
        · simp [e]
      · by_cases e : i = k
        · subst e; simp [(q1 i hk).2]
        · simp [e]
      · rw [p3]; simp
      · rw [p3]; simp
    rw [hp] at hw'
    refine ⟨?_, ?_, ?_, ?_⟩ <;> rw [hw', orderWeights, mulVec_diagonal] <;> simp
  rw [q2.1] at c1 c2
  rw [q2.2] at c3 c4
  set r := reflection .te 0 (2 * Real.pi / wl) (conjLayers data) rI rE
  set t := transmission .te 0 (2 * Real.pi / wl) (conjLayers data) rI rE
  set N : ℝ := ‖s‖ ^ 2 + ‖p‖ ^ 2 with hN
  have hN0 : 0 < N := by
    rcases hsp with hs | hp
    · have := norm_pos_iff.2 hs; positivity
    · have := norm_pos_iff.2 hp; positivity
  rw [TLattice.fluxes_specular h hw hE (mul_pos sI hκ) (mul_pos sE hκ) kI kE q1 q3 (X := N)
    (Y := ‖r‖ ^ 2 * N) (Z := ‖t‖ ^ 2 * N) (by rw [q2.1, q2.2]) hN0.ne'
    (by rw [c1, c3, norm_neg, norm_mul, norm_mul, norm_star, mul_pow, mul_pow]; ring)
    (by rw [c2, c4, norm_mul, norm_mul, norm_star, mul_pow, mul_pow]; ring)]
  congr 1
  refine Prod.ext ?_ (Prod.ext ?_ ?_)
  · simp only; field_simp
  · simp only; field_simp
  · simp only; field_simp

/-- A uniform layer has an S-matrix, in one slice, when its denominators do not vanish. -/
theorem layer_exists_of_den (h : TLattice.make pw a1 a2 ei ee = .ok l) (hs : l.shape = pw) (h0 : 0 < pw.1 ∧ 0 < pw.2)
    (hI : l.epsI.val = rI) (hI0 : 0 < rI) (hw : 0 < wl) {host : ℂ} (hh : host ≠ 0) {depth : ℝ}
    (hkI : ∀ k, flatT l.shape (l.kz l.epsI wl (↑a, ↑b)) k ≠ 0)
    (hc : l.ClearDirs (↑a, ↑b))
    (hg : ∀ k, host ≠ l.inPlane wl (↑a, ↑b) k)
    (hD : ∀ k pol, stackDenominator pol (l.inPlane wl (↑a, ↑b) k) (2 * Real.pi / wl) (conjLayers [(host, depth)]) rI rI ≠ 0) :
    ∃ S, tmatScattering jv1 l [] host wl (↑a, ↑b) depth 0 = .ok S := by
  have hIc : l.epsI.val ≠ 0 := by rw [hI]; exact_mod_cast hI0.ne'
  obtain ⟨T, hT⟩ := slice_exists (jv1 := jv1) (kp := (↑a, ↑b)) (islands := []) h hs h0 hh (by simp) (by simp) hw.ne' hIc
    (rooted_of_real hI hI0) hkI depth 0
  obtain ⟨U, V, hU, hV, -, -, -, hTe⟩ := slice_ok h hs hT
  rw [coupling_uniform id (by simp), coupling_uniform (1 / ·) (by simp), pow_zero, div_one] at hTe
  simp only [id] at hTe
  have hdet : T.toBlocks₁₁.det ≠ 0 := by
    intro hdet
    obtain ⟨w, hw0, hw1⟩ := exists_mulVec_eq_zero_iff.2 hdet
    apply hw0
    -- the field of amplitudes `w` forward on the far side and none forward on the near side
    have hrel : Sum.elim (fun _ => (0 : ℂ)) (T.toBlocks₂₁ *ᵥ w) = T *ᵥ Sum.elim w (fun _ => (0 : ℂ)) := by
      have z : (fun _ : Fin (l.shape.1 * l.shape.2) ⊕ Fin (l.shape.1 * l.shape.2) => (0 : ℂ)) = 0 := rfl
      rw [← fromBlocks_toBlocks T, fromBlocks_mulVec]
      simp [hw1, z]
    have hrel' : V *ᵥ Sum.elim (fun _ => (0 : ℂ)) (T.toBlocks₂₁ *ᵥ w) = NormedSpace.exp (-((depth : ℂ) • tsystem (l.wave (↑a, ↑b))
        (diagonal fun _ => host) (diagonal fun _ => 1 / host) ((2 * Real.pi / wl : ℝ) : ℂ))) *ᵥ (V *ᵥ Sum.elim w (fun _ => (0 : ℂ))) := by
      rw [hrel, hTe, mulVec_mulVec, ← Matrix.mul_assoc, ← Matrix.mul_assoc, Vi_mul_U hU hV, Matrix.one_mul, ← mulVec_mulVec]
    obtain ⟨f, hf, f0, fd⟩ := flow_joins.2 hrel'
    have hcI : ∀ k, l.cosz l.epsI wl (↑a, ↑b) k ≠ 0 := fun k => by
      rw [cosz]
      have := Real.pi_pos
      refine div_ne_zero (hkI k) (div_ne_zero (mul_ne_zero (V_ok hV).2.1 ?_) ?_)
      · exact_mod_cast (by positivity : (2 * Real.pi : ℝ) ≠ 0)
      · exact_mod_cast hw.ne'
    have key : ∀ k pol (aB aT : ℂ),
        l.polAt (↑a, ↑b) pol k (V *ᵥ Sum.elim (fun _ => (0 : ℂ)) (T.toBlocks₂₁ *ᵥ w)) =
          ![0 + aB, star (outerAdmittance pol (l.inPlane wl (↑a, ↑b) k) rI) * (0 - aB)] →
        l.polAt (↑a, ↑b) pol k (V *ᵥ Sum.elim w (fun _ => (0 : ℂ))) = ![aT, star (outerAdmittance pol (l.inPlane wl (↑a, ↑b) k) rI) * aT] →
        star (outerAdmittance pol (l.inPlane wl (↑a, ↑b) k) rI) ≠ 0 → aT = 0 := by
      intro k pol aB aT e1 e2 hη
      have hp := maxwell_pol hw.ne' hh hf (hc k) (hg k) pol depth
      rw [f0, fd, e1, e2] at hp
      have hM : (abeles pol (l.inPlane wl (↑a, ↑b) k) (2 * Real.pi / wl) (conjLayers [(host, depth)])).map star *ᵥ
          ![aT, star (outerAdmittance pol (l.inPlane wl (↑a, ↑b) k) rI) * aT] =
          fun i => star (stackFields pol (l.inPlane wl (↑a, ↑b) k) (2 * Real.pi / wl) (conjLayers [(host, depth)]) rI i) * aT := by
        funext i
        simp [stackFields, mulVec, dotProduct, Fin.sum_univ_two]
        ring
      rw [hM] at hp
      have k1 := congrFun hp 0
      have k2 := congrFun hp 1
      simp only [Matrix.cons_val_zero, Matrix.cons_val_one] at k1 k2
      obtain ⟨r1, -⟩ := two_port k1 k2 hη
      rw [mul_zero] at r1
      have hDs := star_ne_zero.2 (hD k pol)
      refine (mul_eq_zero.1 r1).resolve_left ?_
      have : star (stackDenominator pol (l.inPlane wl (↑a, ↑b) k) (2 * Real.pi / wl) (conjLayers [(host, depth)]) rI rI) =
          star (outerAdmittance pol (l.inPlane wl (↑a, ↑b) k) rI) *
            star (stackFields pol (l.inPlane wl (↑a, ↑b) k) (2 * Real.pi / wl) (conjLayers [(host, depth)]) rI 0) +
            star (stackFields pol (l.inPlane wl (↑a, ↑b) k) (2 * Real.pi / wl) (conjLayers [(host, depth)]) rI 1) := by
        simp [stackDenominator]
      rwa [← this]
    funext i
    have oI := fun k => kz_outer (l := l) (a := a) (b := b) hI hw k
    have hκ0 : ((2 * Real.pi / wl : ℝ) : ℂ) ≠ 0 := by
      have := Real.pi_pos
      exact_mod_cast (by positivity : 2 * Real.pi / wl ≠ 0)
    have zI : ∀ k, star (outerKz (rI - l.inPlane wl (↑a, ↑b) k)) ≠ 0 := fun k => by rw [← oI]; exact div_ne_zero (hkI k) hκ0
    have sI : ((Real.sqrt rI : ℝ) : ℂ) ≠ 0 := by exact_mod_cast (Real.sqrt_pos.2 hI0).ne'
    have qI : (rI : ℂ) = ((Real.sqrt rI : ℝ) : ℂ) ^ 2 := by rw [← ofReal_pow, Real.sq_sqrt hI0.le]
    rcases i with k | k
    · refine key k .te ((T.toBlocks₂₁ *ᵥ w) (.inl k)) (w (.inl k)) ?_ ?_ (zI k)
      · rw [(polAt_V hV _ k).1, oI]; rfl
      · rw [(polAt_V hV _ k).1, oI]
        simp only [Sum.elim_inl, Sum.elim_inr, add_zero, sub_zero]
        rfl
    · have eI : star (outerAdmittance Polarisation.tm (l.inPlane wl (↑a, ↑b) k) rI) = rI / star (outerKz (rI - l.inPlane wl (↑a, ↑b) k)) := by
        simp [outerAdmittance, Polarisation.admittance]
      have cI := cosz_outer (l := l) (a := a) (b := b) hI hI0 hw k
      have := key k .tm (l.cosz l.epsI wl (↑a, ↑b) k * (T.toBlocks₂₁ *ᵥ w) (.inr k)) (-(l.cosz l.epsI wl (↑a, ↑b) k * w (.inr k))) ?_ ?_
        (by rw [eI]; exact div_ne_zero (by exact_mod_cast hI0.ne') (zI k))
      · rw [neg_eq_zero] at this
        exact (mul_eq_zero.1 this).resolve_left (hcI k)
      all_goals
        rw [(polAt_V hV _ k).2, eI, cI, hI, csqrt_pos hI0, qI]
        simp only [Sum.elim_inl, Sum.elim_inr]
        have := zI k
        generalize star (outerKz (rI - l.inPlane wl (↑a, ↑b) k)) = z at *
        funext i
        fin_cases i
      · simp
      · simp; field_simp
      · simp
      · simp; field_simp
  rw [tmatScattering, hT, ok_bind, matrixS_eq_ok.2 ⟨hdet, rfl⟩, ok_bind]
  exact ⟨_, rfl⟩

end TLattice

end Khepri
