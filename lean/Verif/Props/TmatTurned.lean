import Verif.Lemmas.TmatTurned
import Verif.Props.TmatReciprocity

/-!
# C102: T-matrix devices turned over

The concrete case that meets all these hypotheses is the example at the end of `Props/TmatLossyDevice.lean`.
-/

namespace Khepri

open Matrix Complex

variable {pw : ℕ × ℕ} {a1 a2 : R2} {ei ee : PyNum} {l : TLattice} {jv1 : ℝ → ℝ} {wl : ℝ} {a b : ℝ}
  {sheets sheets' : List TSheet}

/-- **C102.** The S-matrix of a device of any number of layers relates exactly the amplitudes on its two sides whose fields a
chain of solutions of Maxwell's equations joins, one per layer, continuous from each to the next. -/
theorem C102_fields (h : TLattice.make pw a1 a2 ei ee = .ok l) (hp : pw.1 = pw.2 ∨ pw.2 = 1) (h0 : 0 < pw.1)
    {S Vi Ve : Matrix (TIdx l.shape) (TIdx l.shape) ℂ}
    (hS : l.deviceOf jv1 wl (↑a, ↑b) sheets = .ok S) (hi : l.V l.epsI wl (↑a, ↑b) = .ok Vi)
    (he : l.V l.epsE wl (↑a, ↑b) = .ok Ve) (u w : TIdx l.shape → ℂ) :
    TScatters S u w ↔ RelChain (fun s => s.Fields jv1 l wl (↑a, ↑b)) sheets (Vi *ᵥ u) (Ve *ᵥ w) :=
  TLattice.deviceOf_relates h hp h0 hS hi he u w

/-- **C102.** Layers in the opposite order, between the outer media exchanged, have the S-matrix seen from the other side. -/
theorem C102_turned (h : TLattice.make pw a1 a2 ei ee = .ok l) (hp : pw.1 = pw.2 ∨ pw.2 = 1) (h0 : 0 < pw.1)
    (hs : List.Forall₂ TSheet.Same sheets.reverse sheets') {S S' : Matrix (TIdx l.shape) (TIdx l.shape) ℂ}
    (hS : l.deviceOf jv1 wl (↑a, ↑b) sheets = .ok S) (hS' : l.turned.deviceOf jv1 wl (↑a, ↑b) sheets' = .ok S')
    {Vi Ve : Matrix (TIdx l.shape) (TIdx l.shape) ℂ} (hi : l.V l.epsI wl (↑a, ↑b) = .ok Vi)
    (he : l.V l.epsE wl (↑a, ↑b) = .ok Ve) : TTurned S S' := by
  have hw := (TLattice.V_ok hi).1
  refine turned_of_scatters fun u v huv => ?_
  have h1 := (TLattice.deviceOf_relates h hp h0 hS hi he u v).1 huv
  refine (TLattice.deviceOf_relates (TLattice.make_turned h) hp h0 hS' (Vi := Ve) (Ve := Vi) he hi (faceTurn v) (faceTurn u)).2 ?_
  have e1 := TLattice.V_turn he v
  have e2 := TLattice.V_turn hi u
  have h2 := relChain_reverse (R' := fun s : TSheet => s.Fields jv1 l wl (↑a, ↑b)) (φ := mirror)
    (fun x F G hF => TLattice.fields_mirror hw ⟨rfl, rfl, rfl⟩ hF) h1
  rw [← e1, ← e2] at h2
  refine relChain_forall₂ (P := TSheet.Same) (fun x y hxy F G hF => ?_) hs h2
  obtain ⟨f, hf, f0, f1⟩ := hF
  obtain ⟨c1, c2, c3⟩ := hxy
  exact ⟨f, by rw [c1, c2]; exact hf, f0, by rw [c3]; exact f1⟩

/-- **C102.** A layer is the same from both sides. -/
theorem C102_layer (h : TLattice.make pw a1 a2 ei ee = .ok l) (hp : pw.1 = pw.2 ∨ pw.2 = 1) (h0 : 0 < pw.1)
    {islands : List (TShape × ℂ)} {host : ℂ} {depth : ℝ} {k k' : ℕ} {S S' : Matrix (TIdx l.shape) (TIdx l.shape) ℂ}
    (hS : tmatScattering jv1 l islands host wl (↑a, ↑b) depth k = .ok S)
    (hS' : tmatScattering jv1 l islands host wl (↑a, ↑b) depth k' = .ok S') : TTurned S S' := by
  obtain ⟨U, V, -, hV, -⟩ := TLattice.layer_S h ((TLattice.make_shape_iff h h0).2 (hp.imp_right le_of_eq)) hS
  have hw := (TLattice.V_ok hV).1
  refine turned_of_scatters fun u v huv => ?_
  have h1 : TSheet.Fields ⟨islands, host, depth, k⟩ jv1 l wl (↑a, ↑b) _ _ := (C60_layer h hp h0 hS hV u v).1 huv
  have h2 := TLattice.fields_mirror (s' := ⟨islands, host, depth, k'⟩) hw ⟨rfl, rfl, rfl⟩ h1
  rw [← TLattice.V_turn hV, ← TLattice.V_turn hV] at h2
  exact (C60_layer h hp h0 hS' hV _ _).2 h2

/-- **C102.** Devices of layers are reciprocal (C100). -/
theorem C102_reciprocal (h : TLattice.make pw a1 a2 ei ee = .ok l) (hp : pw.1 = pw.2 ∨ pw.2 = 1) (ho : pw.1 % 2 = 1)
    (hs : List.Forall₂ TSheet.Same sheets sheets') {S Vi Ve S' Vi' Ve' : Matrix (TIdx l.shape) (TIdx l.shape) ℂ}
    (hS : l.deviceOf jv1 wl (↑a, ↑b) sheets = .ok S)
    (hS' : l.deviceOf jv1 wl (((-a : ℝ) : ℂ), ((-b : ℝ) : ℂ)) sheets' = .ok S')
    (hi : l.V l.epsI wl (↑a, ↑b) = .ok Vi) (he : l.V l.epsE wl (↑a, ↑b) = .ok Ve)
    (hi' : l.V l.epsI wl (((-a : ℝ) : ℂ), ((-b : ℝ) : ℂ)) = .ok Vi')
    (he' : l.V l.epsE wl (((-a : ℝ) : ℂ), ((-b : ℝ) : ℂ)) = .ok Ve') : TReciprocal Vi Ve S Vi' Ve' S' := by
  unfold TLattice.deviceOf at hS hS'
  simp only [bind_eq_ok, mapM_eq_ok] at hS hS'
  obtain ⟨Ss, hSs, Si, hSi, hS⟩ := hS
  obtain ⟨Ss', hSs', Si', hSi', hS'⟩ := hS'
  have hint := C100_interface hSi hi he hSi' hi' he'
  have hl : List.Forall₂ (fun X X' => TReciprocal Vi Vi X Vi' Vi' X') Ss Ss' := by
    clear hS hS'
    induction hs generalizing Ss Ss' with
    | nil => cases hSs; cases hSs'; exact .nil
    | cons hx _ ih =>
      cases hSs with
      | cons hX hXs =>
        cases hSs' with
        | cons hX' hXs' =>
          rw [hx.1, hx.2.1, hx.2.2] at hX'
          exact .cons (C100_layer h hp ho hX hi hX' hi') (ih _ hXs _ hXs')
  cases hl with
  | nil =>
    cases hS
    cases hS'
    exact hint
  | cons h0 ht =>
    simp only [bind_eq_ok] at hS hS'
    obtain ⟨S1, h1, hS⟩ := hS
    obtain ⟨S1', h1', hS'⟩ := hS'
    exact C100_device h0 ht hint h1 hS h1' hS'

/-- **C102.** Turned over, a device transmits from the wave `x` to the wave `y` what it transmits, the right way round and at
the opposite in-plane wave vector, from the wave opposite to `y` to the wave opposite to `x`. -/
theorem C102_transmission (h : TLattice.make pw a1 a2 ei ee = .ok l) (hp : pw.1 = pw.2 ∨ pw.2 = 1) (ho : pw.1 % 2 = 1)
    (hs : List.Forall₂ TSheet.Same sheets.reverse sheets') {sheets'' : List TSheet} (hs' : List.Forall₂ TSheet.Same sheets sheets'')
    {S S' S'' Vi Ve Vi' Ve' : Matrix (TIdx l.shape) (TIdx l.shape) ℂ}
    (hS : l.deviceOf jv1 wl (↑a, ↑b) sheets = .ok S) (hS' : l.turned.deviceOf jv1 wl (↑a, ↑b) sheets' = .ok S')
    (hS'' : l.deviceOf jv1 wl (((-a : ℝ) : ℂ), ((-b : ℝ) : ℂ)) sheets'' = .ok S'')
    (hi : l.V l.epsI wl (↑a, ↑b) = .ok Vi) (he : l.V l.epsE wl (↑a, ↑b) = .ok Ve)
    (hi' : l.V l.epsI wl (((-a : ℝ) : ℂ), ((-b : ℝ) : ℂ)) = .ok Vi')
    (he' : l.V l.epsE wl (((-a : ℝ) : ℂ), ((-b : ℝ) : ℂ)) = .ok Ve') (x y : Fin (l.shape.1 * l.shape.2) ⊕ Fin (l.shape.1 * l.shape.2)) :
    ‖l.weight l.epsI wl (↑a, ↑b) y‖ * ‖S' (.inl y) (.inl x)‖ =
      ‖l.weight l.epsE wl (↑a, ↑b) x‖ * ‖S'' (.inl (oppWave x)) (.inl (oppWave y))‖ := by
  have e1 := C102_turned h hp (by omega) hs hS hS' hi he (.inl y) (.inl x)
  have e2 := C100_entries h hp ho hi he hi' he' (C102_reciprocal h hp ho hs' hS hS'' hi he hi' he') (.inr x) (.inl y)
  have e3 := congrArg (‖·‖) e2
  simp only [norm_mul] at e3
  have hn : ∀ z : TIdx l.shape, ‖turnSign z‖ = 1 := fun z => by rcases z with (z | z) | (z | z) <;> simp [turnSign]
  rw [e1, norm_mul, norm_mul, hn, hn, one_mul, one_mul]
  exact e3.symm

/-- The transmittance when one order propagates. -/
theorem fluxes_transmitted {k0 : Fin (l.shape.1 * l.shape.2)} {κI κE rE : ℝ} (hκI : 0 < κI) (hκE : 0 < κE) (hE : l.epsE.val = rE)
    (hkI : flatT l.shape (l.kz l.epsI wl (0, 0)) k0 = κI) (hkE : flatT l.shape (l.kz l.epsE wl (0, 0)) k0 = κE)
    (hev : ∀ k, k ≠ k0 → floatEps ≤ |(flatT l.shape (l.kz l.epsE wl (0, 0)) k).im|)
    {pin pout : TIdx l.shape → ℂ} (hpin : ∀ k, k ≠ k0 → pin (.inl (.inl k)) = 0 ∧ pin (.inl (.inr k)) = 0) {kp : ℂ × ℂ} {R T A : ℝ}
    (h : computeFluxes l wl pin pout kp = .ok (R, T, A)) :
    T = κE * (‖pout (.inl (.inl k0))‖ ^ 2 + ‖pout (.inl (.inr k0))‖ ^ 2) /
      (κI * (‖pin (.inl (.inl k0))‖ ^ 2 + ‖pin (.inl (.inr k0))‖ ^ 2)) := by
  have fe := TLattice.floatEps_pos
  obtain ⟨h0, -, hT, -⟩ := TLattice.fluxes_eq h
  have e1 : ∑ k, (computeCurrents l wl pin pout (0, 0)).1 k = (l.area / (2 * mu0c * (2 * Real.pi) / wl) : ℝ) * κI *
      ((‖pin (.inl (.inl k0))‖ ^ 2 + ‖pin (.inl (.inr k0))‖ ^ 2 : ℝ) : ℂ) := by
    rw [Finset.sum_eq_single k0]
    · simp only [computeCurrents, hkI, ofReal_im, abs_zero, fe.le, if_true]
    · intro k _ hk
      simp only [computeCurrents, hpin k hk]
      simp
    · simp
  have e3 : ∑ k, (computeCurrents l wl pin pout (0, 0)).2.2 k = (l.area / (2 * mu0c * (2 * Real.pi) / wl) : ℝ) * κE *
      ((‖pout (.inl (.inl k0))‖ ^ 2 + ‖pout (.inl (.inr k0))‖ ^ 2 : ℝ) : ℂ) := by
    rw [Finset.sum_eq_single k0]
    · simp only [computeCurrents, hkE, hE, ofReal_im, abs_zero, fe, and_self, if_true]
    · intro k _ hk
      simp only [computeCurrents]
      rw [if_neg fun hc => absurd (hev k hk) (not_le.2 hc.2)]
    · simp
  rw [e1] at h0
  have hq : ((l.area / (2 * mu0c * (2 * Real.pi) / wl) : ℝ) : ℂ) ≠ 0 := left_ne_zero_of_mul (left_ne_zero_of_mul h0)
  rw [hT, e1, e3]
  generalize ((l.area / (2 * mu0c * (2 * Real.pi) / wl) : ℝ) : ℂ) = q at hq
  rw [mul_assoc, mul_assoc, mul_div_mul_left _ _ hq, ← ofReal_mul, ← ofReal_mul, ← ofReal_div, norm_real,
    Real.norm_of_nonneg (by positivity)]

/-- **C102.** At normal incidence, if only the specular order propagates in both outer media, a device transmits as much
unpolarised light from one side as from the other, lossy or not: the transmittances of both polarisations that
`compute_fluxes` returns have the same sum as those of the device turned over. -/
theorem C102_transmittance (h : TLattice.make pw a1 a2 ei ee = .ok l) (hp : pw.1 = pw.2 ∨ pw.2 = 1) (ho : pw.1 % 2 = 1)
    (hs : List.Forall₂ TSheet.Same sheets.reverse sheets') {S S' Vi Ve : Matrix (TIdx l.shape) (TIdx l.shape) ℂ}
    (hS : l.deviceOf jv1 wl (0, 0) sheets = .ok S) (hS' : l.turned.deviceOf jv1 wl (0, 0) sheets' = .ok S')
    (hi : l.V l.epsI wl (0, 0) = .ok Vi) (he : l.V l.epsE wl (0, 0) = .ok Ve)
    {k0 : Fin (l.shape.1 * l.shape.2)} (hk0 : k0.rev = k0) {κI κE rI rE : ℝ} (hκI : 0 < κI) (hκE : 0 < κE)
    (hI : l.epsI.val = rI) (hE : l.epsE.val = rE)
    (hkI : flatT l.shape (l.kz l.epsI wl (0, 0)) k0 = κI) (hkE : flatT l.shape (l.kz l.epsE wl (0, 0)) k0 = κE)
    (hevI : ∀ k, k ≠ k0 → floatEps ≤ |(flatT l.shape (l.kz l.epsI wl (0, 0)) k).im|)
    (hevE : ∀ k, k ≠ k0 → floatEps ≤ |(flatT l.shape (l.kz l.epsE wl (0, 0)) k).im|) {Rs Ts As Rp Tp Ap Rs' Ts' As' Rp' Tp' Ap' : ℝ}
    (f1 : computeFluxes l wl (Pi.single (.inl (.inl k0)) 1) (S *ᵥ Pi.single (.inl (.inl k0)) 1) (0, 0) = .ok (Rs, Ts, As))
    (f2 : computeFluxes l wl (Pi.single (.inl (.inr k0)) 1) (S *ᵥ Pi.single (.inl (.inr k0)) 1) (0, 0) = .ok (Rp, Tp, Ap))
    (f1' : computeFluxes l.turned wl (Pi.single (.inl (.inl k0)) 1) (S' *ᵥ Pi.single (.inl (.inl k0)) 1) (0, 0) = .ok (Rs', Ts', As'))
    (f2' : computeFluxes l.turned wl (Pi.single (.inl (.inr k0)) 1) (S' *ᵥ Pi.single (.inl (.inr k0)) 1) (0, 0) = .ok (Rp', Tp', Ap')) :
    Ts + Tp = Ts' + Tp' := by
  have z0 : (((0 : ℝ) : ℂ), ((0 : ℝ) : ℂ)) = (0, 0) := by simp
  have z1 : (((-0 : ℝ) : ℂ), ((-0 : ℝ) : ℂ)) = (0, 0) := by simp
  have key := C102_transmission (a := 0) (b := 0) (S := S) (S' := S') (S'' := S) (Vi := Vi) (Ve := Ve) (Vi' := Vi) (Ve' := Ve)
    h hp ho hs (sheets'' := sheets) (List.forall₂_same.2 fun _ _ => ⟨rfl, rfl, rfl⟩)
    (by rw [z0]; exact hS) (by rw [z0]; exact hS') (by rw [z1]; exact hS) (by rw [z0]; exact hi) (by rw [z0]; exact he)
    (by rw [z1]; exact hi) (by rw [z1]; exact he)
  have hf : ‖l.flip (((0 : ℝ) : ℂ), ((0 : ℝ) : ℂ)) k0‖ = 1 := by unfold TLattice.flip; split_ifs <;> simp
  have k11 := key (.inl k0) (.inl k0)
  have k12 := key (.inl k0) (.inr k0)
  have k21 := key (.inr k0) (.inl k0)
  have k22 := key (.inr k0) (.inr k0)
  simp only [TLattice.weight, oppWave, Sum.map_inl, Sum.map_inr, hk0, norm_neg, norm_mul, hf, mul_one] at k11 k12 k21 k22
  rw [z0, hkI, hkE, norm_real, norm_real, Real.norm_of_nonneg hκI.le, Real.norm_of_nonneg hκE.le] at k11 k12 k21 k22
  have hpin1 : ∀ k, k ≠ k0 → (Pi.single (.inl (.inl k0)) 1 : TIdx l.shape → ℂ) (.inl (.inl k)) = 0 ∧
      (Pi.single (.inl (.inl k0)) 1 : TIdx l.shape → ℂ) (.inl (.inr k)) = 0 := fun k hk => by
    constructor <;> rw [Pi.single_eq_of_ne] <;> simp [hk]
  have hpin2 : ∀ k, k ≠ k0 → (Pi.single (.inl (.inr k0)) 1 : TIdx l.shape → ℂ) (.inl (.inl k)) = 0 ∧
      (Pi.single (.inl (.inr k0)) 1 : TIdx l.shape → ℂ) (.inl (.inr k)) = 0 := fun k hk => by
    constructor <;> rw [Pi.single_eq_of_ne] <;> simp [hk]
  have t1 := fluxes_transmitted hκI hκE hE hkI hkE hevE hpin1 f1
  have t2 := fluxes_transmitted hκI hκE hE hkI hkE hevE hpin2 f2
  have t1' : Ts' = κI * (‖(S' *ᵥ (Pi.single (.inl (.inl k0)) 1 : TIdx l.shape → ℂ)) (.inl (.inl k0))‖ ^ 2 +
      ‖(S' *ᵥ (Pi.single (.inl (.inl k0)) 1 : TIdx l.shape → ℂ)) (.inl (.inr k0))‖ ^ 2) /
      (κE * (‖(Pi.single (.inl (.inl k0)) 1 : TIdx l.shape → ℂ) (.inl (.inl k0))‖ ^ 2 +
        ‖(Pi.single (.inl (.inl k0)) 1 : TIdx l.shape → ℂ) (.inl (.inr k0))‖ ^ 2)) :=
    fluxes_transmitted (l := l.turned) hκE hκI hI hkE hkI hevI hpin1 f1'
  have t2' : Tp' = κI * (‖(S' *ᵥ (Pi.single (.inl (.inr k0)) 1 : TIdx l.shape → ℂ)) (.inl (.inl k0))‖ ^ 2 +
      ‖(S' *ᵥ (Pi.single (.inl (.inr k0)) 1 : TIdx l.shape → ℂ)) (.inl (.inr k0))‖ ^ 2) /
      (κE * (‖(Pi.single (.inl (.inr k0)) 1 : TIdx l.shape → ℂ) (.inl (.inl k0))‖ ^ 2 +
        ‖(Pi.single (.inl (.inr k0)) 1 : TIdx l.shape → ℂ) (.inl (.inr k0))‖ ^ 2)) :=
    fluxes_transmitted (l := l.turned) hκE hκI hI hkE hkI hevI hpin2 f2'
  have hcol : ∀ (M : Matrix (TIdx l.shape) (TIdx l.shape) ℂ) x y, (M *ᵥ Pi.single x 1) y = M y x := fun M x y => by
    rw [mulVec_single_one]; rfl
  rw [hcol, hcol] at t1 t2 t1' t2'
  have n1 : ‖(Pi.single (.inl (.inl k0)) 1 : TIdx l.shape → ℂ) (.inl (.inl k0))‖ ^ 2 +
      ‖(Pi.single (.inl (.inl k0)) 1 : TIdx l.shape → ℂ) (.inl (.inr k0))‖ ^ 2 = 1 := by
    rw [Pi.single_eq_same, Pi.single_eq_of_ne (by simp)]; simp
  have n2 : ‖(Pi.single (.inl (.inr k0)) 1 : TIdx l.shape → ℂ) (.inl (.inl k0))‖ ^ 2 +
      ‖(Pi.single (.inl (.inr k0)) 1 : TIdx l.shape → ℂ) (.inl (.inr k0))‖ ^ 2 = 1 := by
    rw [Pi.single_eq_same, Pi.single_eq_of_ne (by simp)]; simp
  rw [n1, mul_one] at t1 t1'
  rw [n2, mul_one] at t2 t2'
  rw [t1, t2, t1', t2']
  have hq : ∀ {x y : ℝ}, κI * x = κE * y → x = κE / κI * y := fun {x y} e => by field_simp; linarith
  rw [hq k11, hq k12, hq k21, hq k22]
  field_simp
  ring

end Khepri
