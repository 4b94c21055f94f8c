import Verif.Lemmas.SetDevice
import Verif.Lemmas.CrystalView
import Verif.Lemmas.Poynting

set_option linter.unusedSectionVars false

/-!
# Devices of layers of any kind

The same as `StandardDevice` and its lemmas, without saying what the layers are.
-/

namespace Khepri

open Matrix

variable {N : ℕ}

/-- A device between outer media, with whatever layers `As`. -/
structure AnyDevice (c : Crystal N) (stack : List String) (mask : List Bool)
    (lr : Layer N) (As : List (AnyLayer N)) (lt : Layer N) (er et : ℂ) : Prop where
  void : c.void = false
  stacking : c.globalStacking = some ("Sref" :: (stack ++ ["Strans"]))
  retain : c.retainMask = true :: (mask ++ [true])
  mask_len : mask.length = stack.length
  ref : c.layers "Sref" = some (.plain lr)
  ref_form : lr.form = .halfInc er
  ref_exp : lr.expansion = c.expansion
  ref_fields : lr.fields = true
  trans : c.layers "Strans" = some (.plain lt)
  trans_form : lt.form = .halfTrn et
  trans_exp : lt.expansion = c.expansion
  trans_fields : lt.fields = true
  layers : List.Forall₂ (fun x a => c.layers x = some a) stack As
  ref_depth : lr.depth = 0
  trans_depth : lt.depth = 0

namespace Crystal

/-- `set_device` on registered layers. -/
theorem setDevice_any {c : Crystal N} {stack : List String} {m : Bool ⊕ List Bool}
    {As : List (AnyLayer N)} (hv : c.void = false) (hr : c.layers "Sref" = none)
    (ht : c.layers "Strans" = none) (hL : List.Forall₂ (fun x a => c.layers x = some a) stack As)
    (hm : (maskList stack m).length = stack.length) :
    ∃ c', c.setDevice stack m = .ok c' ∧
      AnyDevice c' stack (maskList stack m)
        { Layer.halfInfinite c.expansion true c.epsi with fields := true }
        (List.zipWith (fun x a => a.enable (requested x (stack.zip (maskList stack m)))) stack As)
        { Layer.halfInfinite c.expansion false c.epse with fields := true } c.epsi c.epse ∧
      c'.expansion = c.expansion ∧ c'.source = c.source ∧ c'.epsi = c.epsi ∧ c'.epse = c.epse := by
  set fm := maskList stack m with hfm
  have hreg : ∀ x ∈ stack, (c.layers x).isSome := by
    clear hm hfm
    intro x hx
    induction hL with
    | nil => simp at hx
    | cons h1 _ ih =>
      rcases List.mem_cons.1 hx with rfl | hx
      · simp [h1]
      · exact ih hx
  have hnr : "Sref" ∉ stack := fun h => by simpa [hr] using hreg _ h
  have hnt : "Strans" ∉ stack := fun h => by simpa [ht] using hreg _ h
  set lr : Layer N := { Layer.halfInfinite c.expansion true c.epsi with fields := true } with hlr
  set lt : Layer N := { Layer.halfInfinite c.expansion false c.epse with fields := true } with hlt
  set names := "Sref" :: (stack ++ ["Strans"]) with hnames
  set lay2 : String → Option (AnyLayer N) :=
    Function.update (Function.update c.layers "Sref" (some (.plain lr))) "Strans" (some (.plain lt))
    with hlay2
  have hne : ("Sref" : String) ≠ "Strans" := by decide
  have hc2 : ((c.ensureHalf names "Sref" true c.epsi).ensureHalf names "Strans" false c.epse) =
      { c with layers := lay2 } := by
    simp [ensureHalf, hnames, hr, ht, setLayer, hne.symm, hlay2, hlr, hlt]
  let c3 : Crystal N := { c with
    layers := lay2, deviceStack := some stack, globalStacking := some names,
    retainMask := true :: (fm ++ [true]) }
  have hset : c.setDevice stack m = c3.enableFields (names.zip (true :: (fm ++ [true]))) := by
    unfold setDevice
    simp only [withOuter, hv, Bool.false_eq_true, if_false]
    have : (c.ensureHalf names "Sref" true c.epsi).epse = c.epse := by
      unfold ensureHalf setLayer; split_ifs <;> rfl
    rw [← hnames]
    conv_lhs => rw [hc2]
    cases m <;> rfl
  have hzip : names.zip (true :: (fm ++ [true])) =
      ("Sref", true) :: (stack.zip fm ++ [("Strans", true)]) := by
    simp only [hnames, List.zip_cons_cons]
    rw [List.zip_append hm.symm]; rfl
  have hall : ∀ p ∈ names.zip (true :: (fm ++ [true])), (c3.layers p.1).isSome := by
    rw [hzip]
    intro p hp
    simp only [List.mem_cons, List.mem_append, List.not_mem_nil, or_false] at hp
    rcases hp with rfl | hp | rfl
    · simp [c3, hlay2, hne]
    · have hx := (List.of_mem_zip (a := p.1) (b := p.2) hp).1
      have h1 : p.1 ≠ "Sref" := fun h => hnr (h ▸ hx)
      have h2 : p.1 ≠ "Strans" := fun h => hnt (h ▸ hx)
      simpa [c3, hlay2, h1, h2] using hreg _ hx
    · simp [c3, hlay2]
  refine ⟨_, hset.trans (enableFields_eq_ok.2 ⟨hall, rfl⟩), ?_, rfl, rfl, rfl, rfl⟩
  have hreqr : requested "Sref" (names.zip (true :: (fm ++ [true]))) = true := by
    rw [hzip]; simp [requested]
  have hreqt : requested "Strans" (names.zip (true :: (fm ++ [true]))) = true := by
    rw [hzip]; simp [requested]
  have hreq : ∀ x ∈ stack, requested x (names.zip (true :: (fm ++ [true]))) =
      requested x (stack.zip fm) := by
    intro x hx
    have h1 : ("Sref" == x) = false := by
      rw [beq_eq_false_iff_ne]; exact fun h => hnr (h ▸ hx)
    have h2 : ("Strans" == x) = false := by
      rw [beq_eq_false_iff_ne]; exact fun h => hnt (h ▸ hx)
    rw [hzip]; simp [requested, h1, h2]
  refine ⟨hv, rfl, rfl, hm, ?_, ?_, rfl, rfl, ?_, ?_, rfl, rfl, ?_, rfl, rfl⟩
  · show (lay2 "Sref").map _ = _
    rw [hreqr]
    simp [hlay2, hne, AnyLayer.enable, hlr]
  · simp [hlr, Layer.halfInfinite]
  · show (lay2 "Strans").map _ = _
    rw [hreqt]
    simp [hlay2, AnyLayer.enable, hlt]
  · simp [hlt, Layer.halfInfinite]
  · show List.Forall₂ (fun x a => (lay2 x).map (AnyLayer.enable (requested x _)) = some a) stack _
    generalize hg : (fun x (a : AnyLayer N) => a.enable (requested x (stack.zip fm))) = g
    have hlay : ∀ x ∈ stack, lay2 x = c.layers x := by
      intro x hx
      have h1 : x ≠ "Sref" := fun h => hnr (h ▸ hx)
      have h2 : x ≠ "Strans" := fun h => hnt (h ▸ hx)
      simp [hlay2, h1, h2]
    have : ∀ s : List String, ∀ A : List (AnyLayer N), (∀ x ∈ s, x ∈ stack) →
        List.Forall₂ (fun x a => c.layers x = some a) s A →
        List.Forall₂ (fun x a => (lay2 x).map (AnyLayer.enable
          (requested x (names.zip (true :: (fm ++ [true]))))) = some a) s (List.zipWith g s A) := by
      intro s A hs hA
      induction hA with
      | nil => exact .nil
      | cons h1 _ ih =>
        refine .cons ?_ (ih fun y hy => hs y (by simp [hy]))
        rw [hlay _ (hs _ (by simp)), hreq _ (hs _ (by simp)), h1]
        simp [← hg]
    exact this stack As (fun _ h => h) hL

end Crystal

/-- Everything known after solving such a device. -/
structure AnySolved (lib : NumLib) (c c' : Crystal N) (stack : List String) (mask : List Bool)
    (lr : Layer N) (As : List (AnyLayer N)) (lt : Layer N) (er et : ℂ) (src : Source)
    (kx ky : Fin N → ℂ) (W0 V0 : Mat2 N) (rr : Solved N) (As' : List (AnyLayer N))
    (Ss : List (SMat (Fin N ⊕ Fin N))) (rt : Solved N)
    (st : Stacked (Fin N ⊕ Fin N)) : Prop where
  source : c.source = some src
  wl : src.wavelength ≠ 0
  kv : ∃ kz, c.expansion.kVectors src.kp src.wavelength 1 = .ok (kx, ky, kz)
  gap : freeSpaceEigenmodes kx ky = .ok (W0, V0)
  ref_modes : halfSpaceModes kx ky er = .ok (rr.W, rr.V, rr.L)
  ref_scat : reflectionScatmat W0 V0 rr.W rr.V = .ok rr.S
  trans_modes : halfSpaceModes kx ky et = .ok (rt.W, rt.V, rt.L)
  trans_scat : transmissionScatmat W0 V0 rt.W rt.V = .ok rt.S
  lay : List.Forall₂ (fun a a' => a.solve lib src.kp src.wavelength = .ok a') As As'
  scat : List.Forall₂ (fun (a' : AnyLayer N) S => a'.S = some S) As' Ss
  stack_ok : stackLayers (rr.S :: (Ss ++ [rt.S])) (true :: (mask ++ [true])) = .ok st
  ref' : c'.layers "Sref" = some (.plain (lr.store rr))
  trans' : c'.layers "Strans" = some (.plain (lt.store rt))
  lay' : List.Forall₂ (fun x a' => c'.layers x = some a') stack As'
  rest' : c' = { c with layers := c'.layers, stackPositions := c'.stackPositions, stacked := some st }
  er_ne : er ≠ 0
  et_ne : et ≠ 0
  ref_ic : rr.IC = .num (1 / er)
  trans_ic : rt.IC = .num (1 / et)
  pos' : Crystal.positions false (0 :: (As'.map AnyLayer.depth ++ [0])) = .ok c'.stackPositions

theorem anySolved {lib : NumLib} {order : List String} {c c' : Crystal N} {stack : List String}
    {mask : List Bool} {lr lt : Layer N} {As : List (AnyLayer N)} {er et : ℂ}
    (hd : AnyDevice c stack mask lr As lt er et)
    (ho : SetOrder ("Sref" :: (stack ++ ["Strans"])) order) (h : c.solve lib order = .ok c') :
    ∃ src kx ky W0 V0 rr As' Ss rt st,
      AnySolved lib c c' stack mask lr As lt er et src kx ky W0 V0 rr As' Ss rt st := by
  obtain ⟨src, names, ls, pos, Ss, st, hs, hn, h1, h2, hls, hpos, hSs, hst, hc⟩ :=
    (Crystal.solve_eq_ok ho.1).1 h
  rw [hd.stacking, Option.some.injEq] at hn
  subst hn
  -- the entrance
  obtain ⟨a, a', ha, ha', ha''⟩ := h1 "Sref" ((ho.2 _).2 (by simp))
  rw [hd.ref, Option.some.injEq] at ha
  subst ha
  obtain ⟨rr, hrr, rfl⟩ := AnyLayer.solve_plain.1 ha'
  rw [hd.ref_form] at hrr
  obtain ⟨kx, ky, kz, W0, V0, hk, h0, her, hrm, hrS, hrI⟩ := Form.solve_halfInc hrr
  -- the exit
  obtain ⟨b, b', hb, hb', hb''⟩ := h1 "Strans" ((ho.2 _).2 (by simp))
  rw [hd.trans, Option.some.injEq] at hb
  subst hb
  obtain ⟨rt, hrt, rfl⟩ := AnyLayer.solve_plain.1 hb'
  rw [hd.trans_form] at hrt
  obtain ⟨kx', ky', kz', W0', V0', hk', h0', het, htm, htS, htI⟩ := Form.solve_halfTrn hrt
  rw [hd.ref_exp] at hk
  rw [hd.trans_exp, hk, Except.ok.injEq, Prod.mk.injEq, Prod.mk.injEq] at hk'
  obtain ⟨rfl, rfl, rfl⟩ := hk'
  rw [h0, Except.ok.injEq, Prod.mk.injEq] at h0'
  obtain ⟨rfl, rfl⟩ := h0'
  have hwl := (kVectors_eq_ok.1 hk).1
  -- the layers
  have hlay : ∀ (stk : List String) (As : List (AnyLayer N)), (∀ x ∈ stk, x ∈ order) →
      List.Forall₂ (fun x a => c.layers x = some a) stk As →
      ∃ As', List.Forall₂ (fun a a' => AnyLayer.solve lib src.kp src.wavelength a = .ok a') As As' ∧
        List.Forall₂ (fun x a' => c'.layers x = some a') stk As' := by
    intro stk
    induction stk with
    | nil =>
      intro As _ h
      cases h
      exact ⟨[], .nil, .nil⟩
    | cons x stk ih =>
      intro As hm h
      cases h with
      | cons hx ht =>
        rename_i l As
        obtain ⟨As', hr1, hr2⟩ := ih As (fun y hy => hm y (by simp [hy])) ht
        obtain ⟨d, d', hd1, hd2, hd3⟩ := h1 x (hm x (by simp))
        rw [hx, Option.some.injEq] at hd1
        subst hd1
        exact ⟨d' :: As', .cons hd2 hr1, .cons hd3 hr2⟩
  obtain ⟨As', hr1, hr2⟩ := hlay stack As (fun x hx => (ho.2 x).2 (by simp [hx])) hd.layers
  have hls' : ls = .plain (lr.store rr) :: (As' ++ [.plain (lt.store rt)]) := by
    have hz : List.Forall₂ (fun x l => c'.layers x = some l) ("Sref" :: (stack ++ ["Strans"]))
        (.plain (lr.store rr) :: (As' ++ [.plain (lt.store rt)])) :=
      .cons ha'' (List.rel_append hr2 (.cons hb'' .nil))
    exact forall₂_functional (fun a b b' h h' => by rw [h] at h'; exact Option.some.inj h') hls hz
  rw [hls'] at hSs
  obtain ⟨Ss', hSs', rfl⟩ : ∃ Ss', List.Forall₂ (fun (a' : AnyLayer N) S => a'.S = some S) As' Ss' ∧
      Ss = rr.S :: (Ss' ++ [rt.S]) := by
    cases hSs with
    | cons e1 hSs =>
      obtain ⟨Ss', l2, h3, h4, rfl⟩ := forall₂_append_left hSs
      cases h4 with
      | cons e2 h4 =>
        cases h4
        simp only [AnyLayer.S, Layer.store, Option.some.injEq] at e1 e2
        exact ⟨Ss', h3, by rw [← e1, ← e2]⟩
  refine ⟨src, kx, ky, W0, V0, rr, As', Ss', rt, st, hs, hwl, ⟨kz, hk⟩, h0, hrm, hrS, htm, htS,
    hr1, hSs', ?_, ha'', hb'', hr2, ?_, her, het, hrI, htI, ?_⟩
  · rw [← hd.retain]; exact hst
  · rw [hc]
  · rw [hd.void, hls'] at hpos
    rw [hc]
    simpa [AnyLayer.depth, Layer.store, hd.ref_depth, hd.trans_depth] using hpos

section
variable {lib : NumLib} {c c' : Crystal N} {stack : List String} {mask : List Bool}
  {lr lt : Layer N} {As As' : List (AnyLayer N)} {Ss : List (SMat (Fin N ⊕ Fin N))} {er et : ℂ} {src : Source}
  {kx ky : Fin N → ℂ} {W0 V0 : Mat2 N} {rr rt : Solved N} {st : Stacked (Fin N ⊕ Fin N)}

/-- The total matrix, as a chain of fields through modes that give the S-matrices of the layers. -/
theorem AnySolved.fieldChain (hd : AnyDevice c stack mask lr As lt er et)
    (h : AnySolved lib c c' stack mask lr As lt er et src kx ky W0 V0 rr As' Ss rt st)
    {In : List (LayerIn (Fin N ⊕ Fin N))}
    (hIn : List.Forall₂ (fun (L : LayerIn (Fin N ⊕ Fin N)) S =>
      buildScatmat L.W L.V W0 V0 L.lam L.depth (2 * Real.pi / src.wavelength) = .ok S) In Ss)
    (p q : Port (Fin N ⊕ Fin N)) :
    Scatters st.Stot p q ↔
      FieldChain (In.map (LayerIn.toMode (2 * Real.pi / src.wavelength))) (fieldOf rr.W rr.V p) (fieldOf rt.W rt.V q) := by
  have hm' : (true :: (mask ++ [true])).length = (rr.S :: (Ss ++ [rt.S])).length := by
    simp [hd.mask_len, hd.layers.length_eq, h.lay.length_eq, h.scat.length_eq]
  obtain ⟨h1, -⟩ := (stackLayers_exists hm' st.Stot).1 ⟨st, h.stack_ok, rfl⟩
  rw [scatters_leftFold h1]
  simp only [scatters_id, exists_eq_left']
  rw [device_chain h.ref_scat h.trans_scat hIn]

theorem AnySolved.real
    (h : AnySolved lib c c' stack mask lr As lt er et src kx ky W0 V0 rr As' Ss rt st)
    {kp : ℝ × ℝ} (hk : src.kp = (↑kp.1, ↑kp.2)) :
    kx = (fun i => (orderKx c.expansion kp src.wavelength i : ℂ)) ∧
    ky = (fun i => (orderKy c.expansion kp src.wavelength i : ℂ)) := by
  obtain ⟨kz, hkv⟩ := h.kv
  obtain ⟨-, h1, h2, -⟩ := kVectors_eq_ok.1 hkv
  simp only at h1 h2
  rw [h1, h2, hk]
  constructor <;> (funext i; simp [orderKx, orderKy])

end

/-- What the fluxes of a solved device amount to, at a real source: the power of the fields that enter and leave. -/
theorem any_balance {lib : NumLib} {c c' : Crystal N} {stack : List String} {mask : List Bool}
    {lr lt : Layer N} {As As' : List (AnyLayer N)} {Ss : List (SMat (Fin N ⊕ Fin N))} {er et : ℝ} {src : Source}
    {kxc kyc : Fin N → ℂ} {W0 V0 : Mat2 N} {rr rt : Solved N} {st : Stacked (Fin N ⊕ Fin N)}
    (hcen : Centered c.expansion)
    (hd : AnyDevice c stack mask lr As lt er et) (hi : c.epsi = er) (hie : c.epse = et)
    (h : AnySolved lib c c' stack mask lr As lt er et src kxc kyc W0 V0 rr As' Ss rt st)
    {kp : ℝ × ℝ} (hkp : src.kp = (↑kp.1, ↑kp.2))
    (hwl : 0 < src.wavelength) {f : Crystal.Fluxes N} (hf : c'.poyntingFluxEnd = .ok f) :
    ∃ (inc : Vec2 N) (i0 : Fin N) (p q : Port (Fin N ⊕ Fin N)),
      let kx := orderKx c.expansion kp src.wavelength
      let ky := orderKy c.expansion kp src.wavelength
      (i0 : ℕ) = (N - 1) / 2 ∧ kx i0 = kp.1 / (2 * Real.pi / src.wavelength) ∧
      ky i0 = kp.2 / (2 * Real.pi / src.wavelength) ∧
      incident N src.te src.tm ⟨src.kp.1, src.kp.2, src.kzi⟩ = .ok inc ∧
      p.fwd = inc ∧ q.bwd = 0 ∧ Scatters st.Stot p q ∧
      0 < er - kx i0 ^ 2 - ky i0 ^ 2 ∧
      fluxZ (outerField kx ky er p) = Real.sqrt (er - kx i0 ^ 2 - ky i0 ^ 2) *
        (waveNorm kx ky (fun i => outerKz (er - kx i ^ 2 - ky i ^ 2)) inc i0 - f.R) ∧
      fluxZ (outerField kx ky et q) = Real.sqrt (er - kx i0 ^ 2 - ky i0 ^ 2) * f.T := by
  obtain ⟨rfl, rfl⟩ := h.real hkp
  obtain ⟨hgr, hWr, -, hor⟩ := halfSpaceModes_outer h.ref_modes
  obtain ⟨hgt, hWt, -, hot⟩ := halfSpaceModes_outer h.trans_modes
  set kx := orderKx c.expansion kp src.wavelength with hkx
  set ky := orderKy c.expansion kp src.wavelength with hky
  obtain ⟨st', src', inc, ref, tr, Wref, Wtrans, T, R, h1, h2, h3, h4, h5, h6, h7, h8, hT, hR, rfl⟩ :=
    Crystal.poyntingFluxEnd_eq_ok.1 hf
  have hst : c'.stacked = some st := by rw [h.rest']
  have hcs : c'.source = some src := by rw [h.rest']; exact h.source
  have hce : c'.expansion = c.expansion := by rw [h.rest']
  have hci : c'.epsi = (er : ℂ) := by rw [h.rest']; exact hi
  have hcx : c'.epse = (et : ℂ) := by rw [h.rest']; exact hie
  rw [hst, Option.some.injEq] at h1
  rw [hcs, Option.some.injEq] at h2
  subst h1 h2
  rw [h.ref', Option.some.injEq] at h4
  rw [h.trans', Option.some.injEq] at h7
  subst h4 h7
  simp only [AnyLayer.W, Layer.store, hd.ref_fields, hd.trans_fields, if_true, Option.some.injEq] at h5 h8
  rw [hWr] at h5
  rw [hWt] at h8
  subst h5 h8
  rw [hce, hci, hcx, hkp, Matrix.one_mul, inv_one, one_mulVec] at hT
  rw [hce, hci, hkp, Matrix.one_mul, inv_one, one_mulVec] at hR
  obtain ⟨hN, hpn, aTE, aTM, hpol, hinc⟩ := incident_eq_ok.1 h3
  have hlt : (N - 1) / 2 < N := by omega
  let i0 : Fin N := ⟨(N - 1) / 2, hlt⟩
  have hg0 := hcen.2 i0 rfl
  obtain ⟨hz0, -, hTi, hTt⟩ := poyntingFluxes_real hwl hT
  obtain ⟨-, -, hRi, hRt⟩ := poyntingFluxes_real hwl hR
  have hkx0 : kx i0 = kp.1 / (2 * Real.pi / src.wavelength) := by simp [hkx, orderKx, hg0]
  have hky0 : ky i0 = kp.2 / (2 * Real.pi / src.wavelength) := by simp [hky, orderKy, hg0]
  rw [← hkx0, ← hky0] at hz0 hTi hRi
  obtain ⟨hpos, hz1⟩ := outerKz_re_ne_zero hz0
  have hsq : 0 < Real.sqrt (er - kx i0 ^ 2 - ky i0 ^ 2) := Real.sqrt_pos.2 hpos
  simp only [hz1, Complex.ofReal_re] at hTi hRi
  have hother : ∀ i, i ≠ i0 → inc (.inl i) = 0 ∧ inc (.inr i) = 0 := by
    intro i hne
    have : ¬ (i : ℕ) = (N - 1) / 2 := fun h => hne (Fin.ext h)
    rw [hinc]; simp [this]
  let p : Port (Fin N ⊕ Fin N) := ⟨inc, st.Stot.s11 *ᵥ inc⟩
  let q : Port (Fin N ⊕ Fin N) := ⟨st.Stot.s21 *ᵥ inc, 0⟩
  have hsc : Scatters st.Stot p q := by simp [Scatters, p, q]
  refine ⟨inc, i0, p, q, rfl, hkx0, hky0, h3, rfl, rfl, hsc, hpos, ?_, ?_⟩
  · rw [fluxZ_outer hgr]
    · simp only [mul_sub, Finset.sum_sub_distrib]
      congr 1
      · rw [Finset.sum_eq_single i0]
        · rw [hz1, Complex.ofReal_re]
        · intro i _ hne
          simp [p, waveNorm, (hother i hne).1, (hother i hne).2]
        · simp
      · rw [hRt, Finset.mul_sum]
        refine Finset.sum_congr rfl fun i _ => ?_
        rw [hRi i]
        simp only [p]
        field_simp
        rfl
    · intro i hneg
      left
      exact hother i fun h => by rw [h] at hneg; linarith
  · rw [fluxZ_outer hgt]
    · simp only
      rw [hTt, Finset.mul_sum]
      refine Finset.sum_congr rfl fun i _ => ?_
      rw [hTi i]
      have : waveNorm kx ky (fun i => outerKz (et - kx i ^ 2 - ky i ^ 2)) q.bwd i = 0 := by
        simp [q, waveNorm]
      rw [this, sub_zero]
      field_simp
      rfl
    · intro i _
      right
      simp [q]

end Khepri
