import Verif.Lemmas.TmatLossyDevice
import Verif.Lemmas.EzSpectrum
import Verif.Props.TmatTurned

/-!
# C103: T-matrix devices of lossy layers are always computed
-/

namespace Khepri

open Matrix Complex

variable {pw : ℕ × ℕ} {a1 a2 : R2} {ei ee : PyNum} {l : TLattice} {jv1 : ℝ → ℝ} {wl : ℝ} {a b : ℝ} {sheets : List TSheet}

/-- A layer of some thickness, of islands laid out without overlap, whose media all lose more than the code smooths. -/
def TSheet.Lossy (s : TSheet) (l : TLattice) (lat : R2 × R2) : Prop :=
  0 < s.depth ∧ ∃ δ δ', LossyIslands lat s.islands s.host δ δ' ∧ l.tol s.islands s.host id < δ ∧ l.tol s.islands s.host (1 / ·) < δ'

/-- **C103.** The interface between two transparent media never raises, off grazing incidence in the first. -/
theorem C103_interface {ri re : ℝ} (hi : l.epsI.val = ri) (hri : 0 < ri) (he : l.epsE.val = re) (hre : 0 < re) (hw : 0 < wl)
    (hk0 : ∀ k, flatT l.shape (l.kz l.epsI wl (↑a, ↑b)) k ≠ 0) : ∃ S, tmatInterface l wl (↑a, ↑b) = .ok S :=
  TLattice.interface_exists hi hri he hre hw hk0

/-- No wave is created on the right of a layer from nothing on its left. -/
theorem layer_started (h : TLattice.make pw a1 a2 ei ee = .ok l) (hp : pw.1 = pw.2 ∨ pw.2 = 1) (h0 : 0 < pw.1)
    {islands : List (TShape × ℂ)} {host : ℂ} {depth : ℝ} {k : ℕ} {S : Matrix (TIdx l.shape) (TIdx l.shape) ℂ}
    (hS : tmatScattering jv1 l islands host wl (↑a, ↑b) depth k = .ok S) : ∀ v, TScatters S 0 v → v = 0 := by
  intro v hv
  have hs := (TLattice.make_shape_iff h h0).2 (hp.imp_right le_of_eq)
  obtain ⟨U, V, hU, hV, -⟩ := TLattice.layer_S h hs hS
  obtain ⟨f, hf, hfu, hfv⟩ := (TLattice.layer_relates h hs hS hV 0 v).1 hv
  rw [mulVec_zero] at hfu
  have h1 := flow_unique hf depth
  rw [hfu, mulVec_zero, hfv] at h1
  have := congrArg (U *ᵥ ·) h1
  rwa [mulVec_mulVec, TLattice.U_mul_Vi hU hV, one_mulVec, mulVec_zero] at this

section
variable {g : Type} [Fintype g] [DecidableEq g]

/-- **C103.** A part that absorbs whatever reaches it, then a part without gain, between media in which waves carry power
forwards: their S-matrices can always be cascaded. -/
theorem C103_cascade {Va Vb Vc S1 S2 : Matrix ((g ⊕ g) ⊕ (g ⊕ g)) ((g ⊕ g) ⊕ (g ⊕ g)) ℂ}
    (h1 : TLossyPart Va Vb S1) (c1 : ∀ v, TScatters S1 0 v → v = 0) (h2 : TPassive Vb Vc S2)
    (sa : ∀ p, TPower (Va *ᵥ Sum.elim 0 p) ≤ 0) (sc : ∀ p, 0 ≤ TPower (Vc *ᵥ Sum.elim p 0)) :
    ∃ S, multS S1 S2 = .ok S :=
  lossy_cascade h1 c1 h2 sa sc

/-- Any number of absorbing parts. -/
theorem lossy_chain {V : Matrix ((g ⊕ g) ⊕ (g ⊕ g)) ((g ⊕ g) ⊕ (g ⊕ g)) ℂ}
    (sa : ∀ p, TPower (V *ᵥ Sum.elim 0 p) ≤ 0) (sc : ∀ p, 0 ≤ TPower (V *ᵥ Sum.elim p 0))
    {t : List (Matrix ((g ⊕ g) ⊕ (g ⊕ g)) ((g ⊕ g) ⊕ (g ⊕ g)) ℂ)} (ht : ∀ X ∈ t, TLossyPart V V X ∧ ∀ v, TScatters X 0 v → v = 0)
    {S0 : Matrix ((g ⊕ g) ⊕ (g ⊕ g)) ((g ⊕ g) ⊕ (g ⊕ g)) ℂ} (h0 : TLossyPart V V S0) (c0 : ∀ v, TScatters S0 0 v → v = 0) :
    ∃ S1, t.foldlM multS S0 = .ok S1 ∧ TLossyPart V V S1 ∧ ∀ v, TScatters S1 0 v → v = 0 := by
  induction t generalizing S0 with
  | nil => exact ⟨S0, rfl, h0, c0⟩
  | cons X t ih =>
    obtain ⟨hX, cX⟩ := ht X List.mem_cons_self
    have pX : TPassive V V X := fun u v huv => by
      by_cases hu : u = 0
      · rw [hu] at huv ⊢
        rw [cX v huv]
      · exact (hX u v huv hu).le
    obtain ⟨S, hS⟩ := lossy_cascade h0 c0 pX sa sc
    have hl : TLossyPart V V S := fun u w huw hu => by
      obtain ⟨v, hv1, hv2⟩ := (multS_chain hS u w).1 huw
      exact (pX v w hv2).trans_lt (h0 u v hv1 hu)
    have hc : ∀ w, TScatters S 0 w → w = 0 := fun w hw => by
      obtain ⟨v, hv1, hv2⟩ := (multS_chain hS 0 w).1 hw
      rw [c0 v hv1] at hv2
      exact cX w hv2
    obtain ⟨S1, e, r⟩ := ih (fun Y hY => ht Y (List.mem_cons_of_mem _ hY)) hl hc
    exact ⟨S1, by rw [List.foldlM_cons, hS]; exact e, r⟩

end

/-- **C103.** A device of any number of lossy layers between two transparent media is always computed, whatever the orders,
the slicings and the thicknesses, off grazing incidence in the incidence medium; and it absorbs whatever reaches it. -/
theorem C103_device (hJ : BesselOne jv1) (h : TLattice.make pw a1 a2 ei ee = .ok l) (hp : pw.1 = pw.2 ∨ pw.2 = 1)
    (h0 : 0 < pw.1) (hb : Periods l.b) (hs : ∀ s ∈ sheets, s.Lossy l (a1, a2)) (hw : 0 < wl)
    {ri re : ℝ} (hi : l.epsI.val = ri) (hri : 0 < ri) (he : l.epsE.val = re) (hre : 0 < re)
    (hk0 : ∀ k, flatT l.shape (l.kz l.epsI wl (↑a, ↑b)) k ≠ 0) :
    ∃ S Vi Ve, l.deviceOf jv1 wl (↑a, ↑b) sheets = .ok S ∧ l.V l.epsI wl (↑a, ↑b) = .ok Vi ∧ l.V l.epsE wl (↑a, ↑b) = .ok Ve ∧
      TPassive Vi Ve S ∧ (sheets ≠ [] → TLossyPart Vi Ve S) := by
  have hi0 : l.epsI.val ≠ 0 := by rw [hi]; exact_mod_cast hri.ne'
  have he0 : l.epsE.val ≠ 0 := by rw [he]; exact_mod_cast hre.ne'
  obtain ⟨Vi, hVi⟩ := TLattice.V_exists (kp := (↑a, ↑b)) hw.ne' hi0 (TLattice.rooted_pos hi hri)
  obtain ⟨Ve, hVe⟩ := TLattice.V_exists (l := l) (kp := (↑a, ↑b)) hw.ne' he0 (TLattice.rooted_pos he hre)
  obtain ⟨Si, hSi⟩ := TLattice.interface_exists (l := l) hi hri he hre hw hk0
  have pint := C99_interface hSi hVi hVe
  have hl : ∃ Ss, sheets.mapM (fun s => tmatScattering jv1 l s.islands s.host wl (↑a, ↑b) s.depth s.slicing) = .ok Ss ∧
      Ss.length = sheets.length ∧ ∀ X ∈ Ss, TLossyPart Vi Vi X ∧ ∀ v, TScatters X 0 v → v = 0 := by
    clear pint hSi
    induction sheets with
    | nil => exact ⟨[], rfl, rfl, by simp⟩
    | cons s t ih =>
      obtain ⟨Ss, e, hlen, hX⟩ := ih fun x hx => hs x (List.mem_cons_of_mem _ hx)
      obtain ⟨hd, δ, δ', hls, d1, d2⟩ := hs s List.mem_cons_self
      obtain ⟨X, hX1⟩ := C99_exists hJ h hp h0 hb hls d1 d2 hw hi hri hk0 hd.le s.slicing
      refine ⟨X :: Ss, ?_, by simp [hlen], ?_⟩
      · rw [List.mapM_cons, hX1, e]; rfl
      · intro Y hY
        rcases List.mem_cons.1 hY with rfl | hY
        · exact ⟨C99_lossy hJ h hp h0 hb hls d1 d2 hw hd hX1 hVi, layer_started h hp h0 hX1⟩
        · exact hX Y hY
  obtain ⟨Ss, e, hlen, hX⟩ := hl
  unfold TLattice.deviceOf
  rw [e, hSi]
  cases Ss with
  | nil => exact ⟨Si, Vi, Ve, rfl, hVi, hVe, pint, fun hne => absurd (List.length_eq_zero_iff.1 hlen.symm) hne⟩
  | cons S0 t =>
    obtain ⟨x0, c0⟩ := hX S0 List.mem_cons_self
    obtain ⟨S1, e1, l1, c1⟩ := lossy_chain (fun p => (TLattice.power_sign hi hri hw hVi p).2)
      (fun p => (TLattice.power_sign hi hri hw hVi p).1) (fun Y hY => hX Y (List.mem_cons_of_mem _ hY)) x0 c0
    obtain ⟨S, hS⟩ := lossy_cascade l1 c1 pint (fun p => (TLattice.power_sign hi hri hw hVi p).2)
      (fun p => (TLattice.power_sign (l := l.turned) he hre hw hVe p).1)
    have hL : TLossyPart Vi Ve S := fun u w huw hu => by
      obtain ⟨v, hv1, hv2⟩ := (multS_chain hS u w).1 huw
      exact (pint v w hv2).trans_lt (l1 u v hv1 hu)
    refine ⟨S, Vi, Ve, ?_, hVi, hVe, fun u w huw => ?_, fun _ => hL⟩
    · show (t.foldlM multS S0 >>= fun S1 => multS S1 Si) = .ok S
      rw [e1]; exact hS
    · by_cases hu : u = 0
      · subst hu
        obtain ⟨v, hv1, hv2⟩ := (multS_chain hS 0 w).1 huw
        have := pint v w hv2
        rwa [c1 v hv1] at this
      · exact (hL u w huw hu).le

/-- The square lattice with period 1, nine orders, at wavelength 2, in media of permittivity 1 or 9/4: only the specular order
propagates. -/
theorem unit3_evanescent {ei ee : PyNum} {l : TLattice} (h : TLattice.make (3, 3) (1, 0) (0, 1) ei ee = .ok l)
    (hb : l.b = ((2 * Real.pi, 0), (0, 2 * Real.pi))) {eps : PyNum} {r : ℝ} (he : eps.val = r) (hr : r ≤ 9 / 4)
    (k : Fin (l.shape.1 * l.shape.2)) (hk4 : k.val ≠ 4) : 1 ≤ |(flatT l.shape (l.kz eps 2 (0, 0)) k).im| := by
  have hs : l.shape = (3, 3) := (TLattice.make_shape_iff h (by norm_num)).2 (Or.inl rfl)
  have hs1 : l.shape.1 = 3 := by rw [hs]
  have hs2 : l.shape.2 = 3 := by rw [hs]
  have hk := k.2
  simp only [hs1, hs2] at hk
  have hpi := Real.pi_gt_three
  have hz2 := computeKz_sq (l.gx (k % l.shape.1) (k / l.shape.1)) (l.gy (k % l.shape.1) (k / l.shape.1)) eps.val 2 (0, 0)
  change flatT l.shape (l.kz eps 2 (0, 0)) k ^ 2 = _ at hz2
  generalize flatT l.shape (l.kz eps 2 (0, 0)) k = z at *
  generalize k.val = n at *
  rw [(TLattice.make_gx h _ _).1, (TLattice.make_gx h _ _).2, hb, hs1, he] at hz2
  have key : ∃ N : ℕ, 1 ≤ N ∧ z ^ 2 = ((r * Real.pi ^ 2 - 4 * Real.pi ^ 2 * N : ℝ) : ℂ) := by
    have hu : ∀ x y : ℝ, ((uNorm ((0 : ℂ) + (x : ℝ), (0 : ℂ) + (y : ℝ)) : ℝ) : ℂ) ^ 2 = ((x ^ 2 + y ^ 2 : ℝ) : ℂ) := by
      intro x y
      rw [← ofReal_pow]
      congr 1
      simp only [uNorm, zero_add, norm_real, Real.norm_eq_abs, sq_abs]
      rw [Real.sq_sqrt (by positivity)]
    rw [hu] at hz2
    interval_cases n
    · exact ⟨2, by norm_num, by rw [hz2]; push_cast; norm_num; ring⟩
    · exact ⟨1, by norm_num, by rw [hz2]; push_cast; norm_num; ring⟩
    · exact ⟨2, by norm_num, by rw [hz2]; push_cast; norm_num; ring⟩
    · exact ⟨1, by norm_num, by rw [hz2]; push_cast; norm_num; ring⟩
    · exact absurd rfl hk4
    · exact ⟨1, by norm_num, by rw [hz2]; push_cast; norm_num; ring⟩
    · exact ⟨2, by norm_num, by rw [hz2]; push_cast; norm_num; ring⟩
    · exact ⟨1, by norm_num, by rw [hz2]; push_cast; norm_num; ring⟩
    · exact ⟨2, by norm_num, by rw [hz2]; push_cast; norm_num; ring⟩
  obtain ⟨N, hN, hz⟩ := key
  have e := congrArg Complex.re hz
  rw [ofReal_re, sq, mul_re] at e
  have hN' : (1 : ℝ) ≤ N := by exact_mod_cast hN
  have h1 : 1 ≤ z.im ^ 2 := by nlinarith [sq_nonneg z.re, mul_nonneg (sub_nonneg.2 hN') (sq_nonneg Real.pi)]
  rw [← sq_abs] at h1
  by_contra hc
  nlinarith [abs_nonneg z.im]

/-- `compute_fluxes` of one wave of an order that propagates. -/
theorem fluxes_single (h : TLattice.make pw a1 a2 ei ee = .ok l) (hw : 0 < wl) {k0 : Fin (l.shape.1 * l.shape.2)} {κ : ℝ} (hκ : 0 < κ)
    (hk : flatT l.shape (l.kz l.epsI wl (0, 0)) k0 = κ) {pin pout : TIdx l.shape → ℂ}
    (hpin : ∀ k, k ≠ k0 → pin (.inl (.inl k)) = 0 ∧ pin (.inl (.inr k)) = 0)
    (h1 : ‖pin (.inl (.inl k0))‖ ^ 2 + ‖pin (.inl (.inr k0))‖ ^ 2 ≠ 0) (kp : ℂ × ℂ) :
    ∃ R T A, computeFluxes l wl pin pout kp = .ok (R, T, A) := by
  have fe := TLattice.floatEps_pos
  have hmu := mu0c_pos
  have hpi := Real.pi_pos
  have harea : 0 < l.area := by
    obtain ⟨-, -, hb, har, -⟩ := TLattice.make_fields h
    rw [har, unitCellArea]
    exact abs_pos.2 (reciproc_eq_ok.1 hb).1
  have e1 : ∑ k, (computeCurrents l wl pin pout (0, 0)).1 k = (l.area / (2 * mu0c * (2 * Real.pi) / wl) : ℝ) * κ *
      ((‖pin (.inl (.inl k0))‖ ^ 2 + ‖pin (.inl (.inr k0))‖ ^ 2 : ℝ) : ℂ) := by
    rw [Finset.sum_eq_single k0]
    · simp only [computeCurrents, hk, ofReal_im, abs_zero, fe.le, if_true]
    · intro k _ hk
      simp only [computeCurrents, hpin k hk]
      simp
    · simp
  have hne : ∑ k, (computeCurrents l wl pin pout (0, 0)).1 k ≠ 0 := by
    rw [e1]
    refine mul_ne_zero (mul_ne_zero ?_ ?_) ?_
    · exact_mod_cast (by positivity : 0 < l.area / (2 * mu0c * (2 * Real.pi) / wl)).ne'
    · exact_mod_cast hκ.ne'
    · exact_mod_cast h1
  unfold computeFluxes
  simp only [pyCheck, hw.ne', hne, ne_eq, not_false_eq_true, if_true]
  exact ⟨_, _, _, rfl⟩

/-- A lossy layer with a disc. -/
noncomputable def discSheet (depth : ℝ) (slicing : ℕ) (z : ℂ) : TSheet :=
  ⟨[(.shape (.disc (1 / 4) (1 / 2) (1 / 5)), z)], 2 + I, depth, slicing⟩

theorem discSheet_lossy (l : TLattice) {depth : ℝ} (hd : 0 < depth) (slicing : ℕ) (x : ℝ) :
    (discSheet depth slicing (x + I)).Lossy l ((1, 0), (0, 1)) := by
  have hD : Discs (discSheet depth slicing (x + I)).islands := by
    intro d hd
    simp only [discSheet, List.mem_cons, List.not_mem_nil, or_false] at hd
    exact .inr ⟨1 / 4, 1 / 2, 1 / 5, by rw [hd]⟩
  have hx : 0 < x * x + 1 := by nlinarith [mul_self_nonneg x]
  refine ⟨hd, 1, min (1 / 5) (1 / (x * x + 1)), ⟨?_, ⟨by simp [discSheet], ?_⟩, ?_⟩, ?_, ?_⟩
  · have := laid_example (x + I) 1
    exact ⟨fun s hs => this.proper s (by simp [tPattern, discSheet] at hs; simp [hs]),
      this.cell.imp fun o ho s hs => ho s (by simp [tPattern, discSheet] at hs; simp [hs]), List.pairwise_singleton _ _⟩
  · refine le_trans ?_ (neg_le_neg (min_le_left _ _))
    simp only [discSheet]
    rw [one_div, inv_im, normSq_apply]; norm_num
  · intro d hd
    simp only [discSheet, List.mem_cons, List.not_mem_nil, or_false] at hd
    subst hd
    refine ⟨by simp, le_trans ?_ (neg_le_neg (min_le_right _ _))⟩
    rw [one_div, inv_im, normSq_apply]
    simp [neg_div]
  · rw [discs_tol l hD id]; norm_num
  · rw [discs_tol l hD (1 / ·)]
    exact lt_min (by norm_num) (by positivity)

/-- Non-vacuity of C102 and C103: two different lossy layers with discs from a medium of permittivity 1 to one of 9/4, nine
orders, at a wavelength where one order propagates in both.  The device, the device turned over, and the fluxes of both
polarisations through both exist, and they transmit the same. -/
example : ∃ (jv1 : ℝ → ℝ) (l : TLattice), TLattice.make (3, 3) (1, 0) (0, 1) (.float 1) (.float (9 / 4)) = .ok l ∧
    ∀ (d d' : ℝ), 0 < d → 0 < d' → ∀ n n' m m', ∃ (S S' Vi Ve : Matrix (TIdx l.shape) (TIdx l.shape) ℂ)
      (k0 : Fin (l.shape.1 * l.shape.2)) (Rs Ts As Rp Tp Ap Rs' Ts' As' Rp' Tp' Ap' : ℝ),
    l.deviceOf jv1 2 (0, 0) [discSheet d n (((4 : ℝ) : ℂ) + I), discSheet d' n' (((3 : ℝ) : ℂ) + I)] = .ok S ∧
    l.turned.deviceOf jv1 2 (0, 0) [discSheet d' m' (((3 : ℝ) : ℂ) + I), discSheet d m (((4 : ℝ) : ℂ) + I)] = .ok S' ∧
    l.V l.epsI 2 (0, 0) = .ok Vi ∧ l.V l.epsE 2 (0, 0) = .ok Ve ∧ TTurned S S' ∧ TReciprocal Vi Ve S Vi Ve S ∧
    TLossyPart Vi Ve S ∧
    computeFluxes l 2 (Pi.single (.inl (.inl k0)) 1) (S *ᵥ Pi.single (.inl (.inl k0)) 1) (0, 0) = .ok (Rs, Ts, As) ∧
    computeFluxes l 2 (Pi.single (.inl (.inr k0)) 1) (S *ᵥ Pi.single (.inl (.inr k0)) 1) (0, 0) = .ok (Rp, Tp, Ap) ∧
    computeFluxes l.turned 2 (Pi.single (.inl (.inl k0)) 1) (S' *ᵥ Pi.single (.inl (.inl k0)) 1) (0, 0) = .ok (Rs', Ts', As') ∧
    computeFluxes l.turned 2 (Pi.single (.inl (.inr k0)) 1) (S' *ᵥ Pi.single (.inl (.inr k0)) 1) (0, 0) = .ok (Rp', Tp', Ap') ∧
    Ts + Tp = Ts' + Tp' := by
  obtain ⟨jv1, hJ⟩ : ∃ jv1, BesselOne jv1 := ⟨_, fun _ => rfl⟩
  obtain ⟨l, h, hb⟩ := unit_tlattice (3, 3) rfl (.float 1) (.float (9 / 4))
  obtain ⟨-, -, -, har, h1, h2⟩ := TLattice.make_fields h
  have hs : l.shape = (3, 3) := (TLattice.make_shape_iff h (by norm_num)).2 (Or.inl rfl)
  have hper : Periods l.b := hb ▸ unit_periods
  have hv1 : l.epsI.val = ((1 : ℝ) : ℂ) := by rw [h1]; rfl
  have hv2 : l.epsE.val = ((9 / 4 : ℝ) : ℂ) := by rw [h2]; rfl
  have z0 : (((0 : ℝ) : ℂ), ((0 : ℝ) : ℂ)) = (0, 0) := by simp
  have z1 : (((-0 : ℝ) : ℂ), ((-0 : ℝ) : ℂ)) = (0, 0) := by simp
  have hkI : ∀ k, flatT l.shape (l.kz l.epsI 2 (((0 : ℝ) : ℂ), ((0 : ℝ) : ℂ))) k ≠ 0 := fun k => by
    rw [z0, h1]; exact unit_tlattice_kz_ne h hb (Or.inl rfl) k
  have hkE : ∀ k, flatT l.shape (l.kz l.epsE 2 (((0 : ℝ) : ℂ), ((0 : ℝ) : ℂ))) k ≠ 0 := fun k => by
    rw [z0, h2]; exact unit_tlattice_kz_ne h hb (Or.inr rfl) k
  have hlt : 4 < l.shape.1 * l.shape.2 := by rw [hs]; norm_num
  set k0 : Fin (l.shape.1 * l.shape.2) := ⟨4, hlt⟩ with hk0
  have hrev : k0.rev = k0 := by
    apply Fin.ext
    rw [Fin.val_rev]
    show l.shape.1 * l.shape.2 - (4 + 1) = 4
    rw [hs]; norm_num
  have hs1 : l.shape.1 = 3 := by rw [hs]
  have hx : flatT l.shape l.gx k0 = 0 := by
    show l.gx (4 % l.shape.1) (4 / l.shape.1) = 0
    rw [(TLattice.make_gx h _ _).1, hb, hs1]; norm_num
  have hy : flatT l.shape l.gy k0 = 0 := by
    show l.gy (4 % l.shape.1) (4 / l.shape.1) = 0
    rw [(TLattice.make_gx h _ _).2, hb, hs1]; norm_num
  have c1 := TLattice.specular_kz (l := l) (wl := 2) hv1 one_pos two_pos hx hy
  have c2 := TLattice.specular_kz (l := l) (wl := 2) hv2 (by norm_num) two_pos hx hy
  have p1 : 0 < Real.sqrt 1 * (2 * Real.pi / 2) := by have := Real.pi_pos; positivity
  have p2 : 0 < Real.sqrt (9 / 4) * (2 * Real.pi / 2) := by have := Real.pi_pos; positivity
  have fl : floatEps ≤ 1 := by unfold floatEps; norm_num
  have ev1 : ∀ k, k ≠ k0 → floatEps ≤ |(flatT l.shape (l.kz l.epsI 2 (0, 0)) k).im| := fun k hk =>
    fl.trans (unit3_evanescent h hb hv1 (by norm_num) k fun e => hk (Fin.ext e))
  have ev2 : ∀ k, k ≠ k0 → floatEps ≤ |(flatT l.shape (l.kz l.epsE 2 (0, 0)) k).im| := fun k hk =>
    fl.trans (unit3_evanescent h hb hv2 le_rfl k fun e => hk (Fin.ext e))
  refine ⟨jv1, l, h, fun d d' hd hd' n n' m m' => ?_⟩
  obtain ⟨S, Vi, Ve, hS, hVi, hVe, -, hL⟩ := C103_device (sheets := [discSheet d n (((4 : ℝ) : ℂ) + I), discSheet d' n' (((3 : ℝ) : ℂ) + I)])
    hJ h (Or.inl rfl) (by norm_num) hper
    (by rintro s hs; simp only [List.mem_cons, List.not_mem_nil, or_false] at hs; rcases hs with rfl | rfl
        · exact discSheet_lossy l hd n 4
        · exact discSheet_lossy l hd' n' 3) two_pos hv1 one_pos hv2 (by norm_num) hkI
  obtain ⟨S', -, -, hS', -⟩ := C103_device (l := l.turned)
    (sheets := [discSheet d' m' (((3 : ℝ) : ℂ) + I), discSheet d m (((4 : ℝ) : ℂ) + I)])
    hJ (TLattice.make_turned h) (Or.inl rfl) (by norm_num) hper
    (by rintro s hs; simp only [List.mem_cons, List.not_mem_nil, or_false] at hs; rcases hs with rfl | rfl
        · exact discSheet_lossy l.turned hd' m' 3
        · exact discSheet_lossy l.turned hd m 4) two_pos hv2 (by norm_num) hv1 one_pos hkE
  have hsame : List.Forall₂ TSheet.Same [discSheet d n (((4 : ℝ) : ℂ) + I), discSheet d' n' (((3 : ℝ) : ℂ) + I)].reverse
      [discSheet d' m' (((3 : ℝ) : ℂ) + I), discSheet d m (((4 : ℝ) : ℂ) + I)] :=
    .cons ⟨rfl, rfl, rfl⟩ (.cons ⟨rfl, rfl, rfl⟩ .nil)
  have hT : TTurned S S' := C102_turned h (Or.inl rfl) (by norm_num) hsame hS hS' hVi hVe
  rw [z0] at hS hS' hVi hVe
  have hR := C102_reciprocal (a := 0) (b := 0) (S := S) (S' := S) (Vi := Vi) (Ve := Ve) (Vi' := Vi) (Ve' := Ve)
    h (Or.inl rfl) rfl (List.forall₂_same.2 fun _ _ => ⟨rfl, rfl, rfl⟩)
    (by rw [z0]; exact hS) (by rw [z1]; exact hS) (by rw [z0]; exact hVi) (by rw [z0]; exact hVe) (by rw [z1]; exact hVi) (by rw [z1]; exact hVe)
  have q1 : ∀ k, k ≠ k0 → (Pi.single (.inl (.inl k0)) 1 : TIdx l.shape → ℂ) (.inl (.inl k)) = 0 ∧
      (Pi.single (.inl (.inl k0)) 1 : TIdx l.shape → ℂ) (.inl (.inr k)) = 0 := fun k hk => by
    constructor <;> rw [Pi.single_eq_of_ne] <;> simp [hk]
  have q2 : ∀ k, k ≠ k0 → (Pi.single (.inl (.inr k0)) 1 : TIdx l.shape → ℂ) (.inl (.inl k)) = 0 ∧
      (Pi.single (.inl (.inr k0)) 1 : TIdx l.shape → ℂ) (.inl (.inr k)) = 0 := fun k hk => by
    constructor <;> rw [Pi.single_eq_of_ne] <;> simp [hk]
  have n1 : ‖(Pi.single (.inl (.inl k0)) 1 : TIdx l.shape → ℂ) (.inl (.inl k0))‖ ^ 2 +
      ‖(Pi.single (.inl (.inl k0)) 1 : TIdx l.shape → ℂ) (.inl (.inr k0))‖ ^ 2 ≠ 0 := by
    rw [Pi.single_eq_same, Pi.single_eq_of_ne (by simp)]; simp
  have n2 : ‖(Pi.single (.inl (.inr k0)) 1 : TIdx l.shape → ℂ) (.inl (.inl k0))‖ ^ 2 +
      ‖(Pi.single (.inl (.inr k0)) 1 : TIdx l.shape → ℂ) (.inl (.inr k0))‖ ^ 2 ≠ 0 := by
    rw [Pi.single_eq_same, Pi.single_eq_of_ne (by simp)]; simp
  obtain ⟨Rs, Ts, As, f1⟩ := fluxes_single (pout := S *ᵥ Pi.single (.inl (.inl k0)) 1) h two_pos p1 c1 q1 n1 (0, 0)
  obtain ⟨Rp, Tp, Ap, f2⟩ := fluxes_single (pout := S *ᵥ Pi.single (.inl (.inr k0)) 1) h two_pos p1 c1 q2 n2 (0, 0)
  obtain ⟨Rs', Ts', As', f1'⟩ := fluxes_single (l := l.turned) (pout := S' *ᵥ Pi.single (.inl (.inl k0)) 1) (TLattice.make_turned h)
    two_pos p2 c2 q1 n1 (0, 0)
  obtain ⟨Rp', Tp', Ap', f2'⟩ := fluxes_single (l := l.turned) (pout := S' *ᵥ Pi.single (.inl (.inr k0)) 1) (TLattice.make_turned h)
    two_pos p2 c2 q2 n2 (0, 0)
  exact ⟨S, S', Vi, Ve, k0, Rs, Ts, As, Rp, Tp, Ap, Rs', Ts', As', Rp', Tp', Ap', hS, hS', hVi, hVe, hT, hR, hL (by simp), f1, f2,
    f1', f2', C102_transmittance h (Or.inl rfl) rfl hsame hS hS' hVi hVe hrev p1 p2 hv1 hv2 c1 c2 ev1 ev2 f1 f2 f1' f2'⟩

end Khepri
