import Verif.Lemmas.TmatScale

/-! Project files with another lattice size. -/

set_option linter.unusedSectionVars false

namespace Khepri

open Matrix Complex

/-! ### Projects -/

/-- The project with another lattice size. -/
def EzConfig.resize (s : ℝ) (cfg : EzConfig) : EzConfig := { cfg with a := s * cfg.a }

theorem gatherS_resize (s : ℝ) (cfg : EzConfig) : ∀ fuel name req,
    gatherS (cfg.resize s) fuel name req = gatherS cfg fuel name req
  | 0, _, _ => rfl
  | k + 1, name, req => by
    have ih : gatherS (cfg.resize s) k = gatherS cfg k := by
      funext name req; exact gatherS_resize s cfg k name req
    rw [gatherS, gatherS, ih]
    rfl

theorem stackS_resize {n : Type} [Fintype n] [DecidableEq n] (s : ℝ) (cfg : EzConfig)
    (get : String → Option (Matrix (n ⊕ n) (n ⊕ n) ℂ)) : ∀ fuel name, stackS (cfg.resize s) get fuel name = stackS cfg get fuel name
  | 0, _ => rfl
  | k + 1, name => by
    have ih : stackS (cfg.resize s) get k = stackS cfg get k := by
      funext name; exact stackS_resize s cfg get k name
    rw [stackS, stackS, ih]
    rfl

theorem ezLattice_resize {s : ℝ} (hs : 0 < s) (cfg : EzConfig) :
    ezLattice (cfg.resize s) = (ezLattice cfg).map (TLattice.enlarge s) := by
  have e : ∀ x : ℝ, x * (s * cfg.a) = s * (x * cfg.a) := fun x => by ring
  unfold ezLattice
  simp only [EzConfig.resize, e]
  cases pyKey (cfg.materials cfg.incident) with
  | error e => rfl
  | ok ei =>
    simp only [ok_bind]
    cases pyKey (cfg.materials cfg.substrate) with
    | error e => rfl
    | ok ee =>
      simp only [ok_bind]
      exact TLattice.make_enlarge hs cfg.pw (cfg.a1.1 * cfg.a, cfg.a1.2 * cfg.a) (cfg.a2.1 * cfg.a, cfg.a2.2 * cfg.a) _ _

theorem ezShape_scale (s : ℝ) (name : String) (ps : List ℝ) :
    ezShape name (ps.map (s * ·)) = (ezShape name ps).map (TShape.enlarge s) := by
  by_cases h1 : name = "rectangle"
  · subst h1
    rcases ps with _ | ⟨a, _ | ⟨b, _ | ⟨c, _ | ⟨d, _ | ⟨e, ps⟩⟩⟩⟩⟩ <;> rfl
  · by_cases h2 : name = "disc"
    · subst h2
      rcases ps with _ | ⟨a, _ | ⟨b, _ | ⟨c, _ | ⟨d, ps⟩⟩⟩⟩ <;> rfl
    · by_cases h3 : name = "uniform"
      · subst h3
        rcases ps with _ | ⟨a, ps⟩ <;> rfl
      · have : ∀ l, ezShape name l = .error .attribute := by
          intro l
          unfold ezShape
          split <;> first | contradiction | rfl
        rw [this, this]
        rfl

theorem ezOptics_resize (s : ℝ) (cfg : EzConfig) (ly : EzLayer) : ezOptics (cfg.resize s) ly =
    (ezOptics cfg ly).map fun o => (o.1.map fun d => (d.1.enlarge s, d.2), o.2) := by
  have e : ∀ ps : List ℝ, ps.map (· * (s * cfg.a)) = (ps.map (· * cfg.a)).map (s * ·) := fun ps => by
    rw [List.map_map]
    congr 1
    funext x
    simp only [Function.comp]
    ring
  unfold ezOptics
  simp only [EzConfig.resize, e, ezShape_scale]
  cases pyKey (cfg.materials ly.material) with
  | error e => rfl
  | ok host =>
    simp only [ok_bind]
    have key : ∀ geo : List EzIsland, (geo.mapM fun i : EzIsland => do
        let eps ← pyKey (cfg.materials i.material)
        let sh ← (ezShape i.shape (i.params.map (· * cfg.a))).map (TShape.enlarge s)
        return (sh, (eps : ℂ))) = (geo.mapM fun i : EzIsland => do
        let eps ← pyKey (cfg.materials i.material)
        let sh ← ezShape i.shape (i.params.map (· * cfg.a))
        return (sh, (eps : ℂ))).map (List.map fun d : TShape × ℂ => (d.1.enlarge s, d.2)) := by
      intro geo
      induction geo with
      | nil => rfl
      | cons i geo ih =>
        rw [List.mapM_cons, List.mapM_cons, ih]
        cases pyKey (cfg.materials i.material) with
        | error e => rfl
        | ok eps =>
          simp only [ok_bind]
          cases ezShape i.shape (i.params.map (· * cfg.a)) with
          | error e => rfl
          | ok sh =>
            simp only [Except.map, ok_bind]
            generalize (geo.mapM fun i : EzIsland => do
              let eps ← pyKey (cfg.materials i.material)
              let sh ← ezShape i.shape (i.params.map (· * cfg.a))
              return (sh, (eps : ℂ))) = x
            cases x <;> rfl
    rw [key]
    generalize (ly.geometry.mapM fun i : EzIsland => do
      let eps ← pyKey (cfg.materials i.material)
      let sh ← ezShape i.shape (i.params.map (· * cfg.a))
      return (sh, (eps : ℂ))) = x
    cases x <;> rfl

theorem except_map_ok {α β : Type} (f : α → β) (a : α) : (Except.ok a : Py α).map f = .ok (f a) := rfl

theorem except_bind_ok {α β : Type} (f : α → Py β) (a : α) : (Except.ok a : Py α).bind f = f a := rfl

theorem except_bind_error {α β : Type} (f : α → Py β) (e : PyErr) : (Except.error e : Py α).bind f = .error e := rfl

theorem except_map_error {α β : Type} (f : α → β) (e : PyErr) : (Except.error e : Py α).map f = .error e := rfl

theorem ezSolve_eq (jv1 : ℝ → ℝ) (cfg : EzConfig) (l : TLattice) (wl : ℝ) (kp : ℂ × ℂ) (ly : EzLayer) :
    ezSolve jv1 cfg l wl kp ly =
      (ezOptics cfg ly).bind fun o => tmatScattering jv1 l o.1 o.2 wl kp (ly.depth * cfg.a) 3 := rfl

theorem ezSolve_resize {jv1 : ℝ → ℝ} {s : ℝ} (hs : 0 < s) (cfg : EzConfig) {l : TLattice} {wl : ℝ} {kp : ℂ × ℂ}
    (hc : l.ClearTable s) (hd : l.SameDirs s kp) (ly : EzLayer) :
    ezSolve jv1 (cfg.resize s) (l.enlarge s) (s * wl) (kp.1 / s, kp.2 / s) ly = ezSolve jv1 cfg l wl kp ly := by
  rw [ezSolve_eq, ezSolve_eq, ezOptics_resize]
  have e : ly.depth * (cfg.resize s).a = s * (ly.depth * cfg.a) := by
    rw [show (cfg.resize s).a = s * cfg.a from rfl]; ring
  rw [e]
  have key := TLattice.tmatScattering_enlarge (jv1 := jv1) (wl := wl) hs hc hd
  generalize ezOptics cfg ly = x
  cases x with
  | error e =>
    rw [except_map_error, except_bind_error, except_bind_error]
    rfl
  | ok o =>
    rw [except_map_ok, except_bind_ok, except_bind_ok]
    exact key o.1 o.2 (ly.depth * cfg.a) 3

/-- `ezDevice` in terms of the S-matrices of layers and of the interface. -/
noncomputable def ezDeviceWith (sh : ℕ × ℕ) (cfg : EzConfig) (fuel : ℕ) (solve : EzLayer → Py (Matrix (TIdx sh) (TIdx sh) ℂ))
    (interface : Py (Matrix (TIdx sh) (TIdx sh) ℂ)) (device : String) : Py (Matrix (TIdx sh) (TIdx sh) ℂ) := do
  let req ← gatherS cfg fuel device []
  pyCheck (0 < req.length) .assertion
  let Ss ← req.mapM fun name => do
    let ly ← pyKey (cfg.layers name)
    let S ← solve ly
    return (name, S)
  let Stot ← stackS cfg (fun name => Ss.lookup name) fuel device
  let Si ← interface
  let S ← ezMatmul Stot (some Si)
  match S with
  | some S => .ok S
  | none => .error .type

theorem ezDeviceWith_eq (jv1 : ℝ → ℝ) (cfg : EzConfig) (fuel : ℕ) (l : TLattice) (wl : ℝ) (kp : ℂ × ℂ) (device : String) :
    ezDevice jv1 cfg fuel l wl kp device =
      ezDeviceWith l.shape cfg fuel (ezSolve jv1 cfg l wl kp) (tmatInterface l wl kp) device := by
  unfold ezDevice ezLayers ezDeviceWith
  refine bind_congr fun req => bind_congr fun _ => bind_congr fun Ss => bind_congr fun St => bind_congr fun Si =>
    bind_congr fun S => ?_
  cases S <;> rfl

theorem ezDeviceWith_resize (s : ℝ) (sh : ℕ × ℕ) (cfg : EzConfig) (fuel : ℕ) (solve : EzLayer → Py (Matrix (TIdx sh) (TIdx sh) ℂ))
    (interface : Py (Matrix (TIdx sh) (TIdx sh) ℂ)) (device : String) :
    ezDeviceWith sh (cfg.resize s) fuel solve interface device = ezDeviceWith sh cfg fuel solve interface device := by
  unfold ezDeviceWith
  simp only [gatherS_resize, stackS_resize]
  rfl

theorem ezDevice_resize {jv1 : ℝ → ℝ} {s : ℝ} (hs : 0 < s) (cfg : EzConfig) {l : TLattice} {wl : ℝ} {kp : ℂ × ℂ}
    (hc : l.ClearTable s) (hd : l.SameDirs s kp) (fuel : ℕ) (device : String) :
    ezDevice jv1 (cfg.resize s) fuel (l.enlarge s) (s * wl) (kp.1 / s, kp.2 / s) device = ezDevice jv1 cfg fuel l wl kp device := by
  rw [ezDeviceWith_eq, ezDeviceWith_eq, ezDeviceWith_resize]
  exact congrArg₂ (fun (f : EzLayer → Py (Matrix (TIdx l.shape) (TIdx l.shape) ℂ)) i => ezDeviceWith l.shape cfg fuel f i device)
    (funext fun ly => ezSolve_resize hs cfg hc hd ly) (TLattice.tmatInterface_enlarge hs hd)

theorem kplanar_scale {s : ℝ} (hs : 0 < s) (eps : ℂ) (wl theta phi : ℝ) :
    computeKplanar eps (s * wl) theta phi = (computeKplanar eps wl theta phi).map fun kp => (kp.1 / (s : ℂ), kp.2 / (s : ℂ)) := by
  have hsc : (s : ℂ) ≠ 0 := by exact_mod_cast hs.ne'
  unfold computeKplanar
  by_cases h : wl = 0
  · simp [h, throw, throwThe, MonadExceptOf.throw, bind, Except.bind, Except.map]
  · have h' : s * wl ≠ 0 := mul_ne_zero hs.ne' h
    have hw : (wl : ℂ) ≠ 0 := by exact_mod_cast h
    simp only [h, h', if_false, pure, Except.pure, bind, Except.bind, Except.map, Except.ok.injEq, Prod.mk.injEq]
    push_cast
    constructor <;> field_simp

/-- The end of a turn of the loop. -/
noncomputable def pointEnd (sh pw : ℕ × ℕ) (s p : ℂ) (S : Py (Matrix (TIdx sh) (TIdx sh) ℂ))
    (fluxes : (TIdx sh → ℂ) → (TIdx sh → ℂ) → Py (ℝ × ℝ × ℝ)) : Py (ℝ × ℝ × ℝ) := do
  let S ← S
  let pin0 ← tmatIncident pw 1 p s
  let pin ← fitVector pw sh pin0
  fluxes pin (S *ᵥ pin)

theorem ezPoint_eq (jv1 : ℝ → ℝ) (cfg : EzConfig) (fuel : ℕ) (l : TLattice) (s p : ℂ) (device : String) (c : ℝ × ℝ × ℝ) :
    ezPoint jv1 cfg fuel l s p device c = (do
      pyCheck (c.2.2 ≠ 0) .nonFinite
      let kp ← computeKplanar l.epsI.val (cfg.a / c.2.2) c.2.1 c.1
      let f ← pointEnd l.shape cfg.pw s p (ezDevice jv1 cfg fuel l (cfg.a / c.2.2) kp device)
        fun pin pout => computeFluxes l (cfg.a / c.2.2) pin pout kp
      return ⟨c.1, c.2.1, c.2.2, cfg.a / c.2.2, f.1, f.2.1, f.2.2⟩) := by
  unfold ezPoint pointEnd
  simp only [bind_assoc]

theorem ezPoint_resize {jv1 : ℝ → ℝ} {s : ℝ} (hs : 0 < s) {cfg : EzConfig} {l : TLattice} (hl : ezLattice cfg = .ok l)
    {c : ℝ × ℝ × ℝ} (h1 : cfg.Clear c) (h2 : (cfg.resize s).Clear c) (fuel : ℕ) (sp p : ℂ) (device : String) :
    ezPoint jv1 (cfg.resize s) fuel (l.enlarge s) sp p device c =
      (ezPoint jv1 cfg fuel l sp p device c).map fun r => { r with wavelength := s * r.wavelength } := by
  rw [ezPoint_eq, ezPoint_eq]
  have ew : (cfg.resize s).a / c.2.2 = s * (cfg.a / c.2.2) := by
    rw [show (cfg.resize s).a = s * cfg.a from rfl, mul_div_assoc]
  have ek : computeKplanar (l.enlarge s).epsI.val (s * (cfg.a / c.2.2)) c.2.1 c.1 =
      (computeKplanar l.epsI.val (cfg.a / c.2.2) c.2.1 c.1).map fun kp => (kp.1 / (s : ℂ), kp.2 / (s : ℂ)) := kplanar_scale hs _ _ _ _
  have hl' : ezLattice (cfg.resize s) = .ok (l.enlarge s) := by rw [ezLattice_resize hs, hl]; rfl
  unfold EzConfig.Clear at h2
  rw [ew] at h2 ⊢
  rw [ek]
  cases hkp : computeKplanar l.epsI.val (cfg.a / c.2.2) c.2.1 c.1 with
  | error e =>
    rw [except_map_error]
    by_cases h : c.2.2 ≠ 0
    · rw [pyCheck_ok h, ok_bind, ok_bind, error_bind, error_bind]; rfl
    · rw [pyCheck_err h, error_bind, error_bind]; rfl
  | ok kp =>
    rw [except_map_ok]
    obtain ⟨a1, a2, a3⟩ := h1 l kp hl hkp
    obtain ⟨b1, b2, b3⟩ := h2 (l.enlarge s) (kp.1 / s, kp.2 / s) hl' (by rw [ek, hkp]; rfl)
    have hd : l.SameDirs s kp := by
      constructor
      · intro k
        rw [uNorm, Real.sq_sqrt (by positivity)]
        exact a2 k
      · intro k
        rw [uNorm, Real.sq_sqrt (by positivity)]
        exact b2 k
    have hc : l.ClearTable s := fun i j hi hj => ⟨a1 i j hi hj, b1 i j hi hj⟩
    have hg : ∀ eps ∈ [l.epsI, l.epsE], l.SameGrazing s eps (cfg.a / c.2.2) := fun eps he =>
      ⟨fun k => (a3 eps he k).imp_right fun h => h.trans_le (le_abs_self _),
        fun k => (b3 eps he k).imp_right fun h => h.trans_le (le_abs_self _)⟩
    by_cases h : c.2.2 ≠ 0
    · rw [pyCheck_ok h, ok_bind, ok_bind, ok_bind, ok_bind]
      have e1 := ezDevice_resize (jv1 := jv1) (wl := cfg.a / c.2.2) hs cfg hc hd fuel device
      have e2 : (fun pin pout => computeFluxes (l.enlarge s) (s * (cfg.a / c.2.2)) pin pout (kp.1 / (s : ℂ), kp.2 / (s : ℂ))) =
          (fun (pin pout : TIdx l.shape → ℂ) => computeFluxes l (cfg.a / c.2.2) pin pout kp) := by
        funext pin pout
        exact TLattice.computeFluxes_enlarge hs (hg _ (by simp)) (hg _ (by simp)) pin pout kp _
      have e3 : pointEnd (l.enlarge s).shape (cfg.resize s).pw sp p
          (ezDevice jv1 (cfg.resize s) fuel (l.enlarge s) (s * (cfg.a / c.2.2)) (kp.1 / s, kp.2 / s) device)
          (fun pin pout => computeFluxes (l.enlarge s) (s * (cfg.a / c.2.2)) pin pout (kp.1 / (s : ℂ), kp.2 / (s : ℂ))) =
          pointEnd l.shape cfg.pw sp p (ezDevice jv1 cfg fuel l (cfg.a / c.2.2) kp device)
            (fun pin pout => computeFluxes l (cfg.a / c.2.2) pin pout kp) :=
        congrArg₂ (fun S f => pointEnd l.shape cfg.pw sp p S f) e1 e2
      rw [e3]
      generalize pointEnd l.shape cfg.pw sp p (ezDevice jv1 cfg fuel l (cfg.a / c.2.2) kp device)
        (fun pin pout => computeFluxes l (cfg.a / c.2.2) pin pout kp) = x
      cases x <;> rfl
    · rw [pyCheck_err h, error_bind, error_bind]; rfl

theorem mapM_map_result {α β : Type} {f g : α → Py β} {F : β → β} : ∀ {L : List α}, (∀ c ∈ L, g c = (f c).map F) →
    L.mapM g = (L.mapM f).map (List.map F)
  | [], _ => rfl
  | c :: L, h => by
    rw [List.mapM_cons, List.mapM_cons, h c (by simp), mapM_map_result fun c hc => h c (by simp [hc])]
    cases f c with
    | error e => rfl
    | ok x =>
      rw [except_map_ok, ok_bind, ok_bind]
      cases L.mapM f <;> rfl

theorem ezSpectrum_resize {jv1 : ℝ → ℝ} {s : ℝ} (hs : 0 < s) {cfg : EzConfig} {st : EzStudy}
    (h : ∀ c ∈ st.configs, cfg.Clear c ∧ (cfg.resize s).Clear c) (fuel : ℕ) (device : String) :
    ezSpectrum jv1 (cfg.resize s) fuel st device =
      (ezSpectrum jv1 cfg fuel st device).map (List.map fun r => { r with wavelength := s * r.wavelength }) := by
  unfold ezSpectrum
  rw [ezLattice_resize hs, gatherS_resize]
  cases hl : ezLattice cfg with
  | error e => rfl
  | ok l =>
    rw [except_map_ok, ok_bind, ok_bind, mapM_map_result fun c hc => ezPoint_resize hs hl (h c hc).1 (h c hc).2 fuel st.s st.p device,
      show (cfg.resize s).pw = cfg.pw from rfl]
    cases tmatIncident cfg.pw 1 st.p st.s with
    | error e => rfl
    | ok p =>
      rw [ok_bind, ok_bind]
      cases gatherS cfg fuel device [] with
      | error e => rfl
      | ok req =>
        rw [ok_bind, ok_bind]
        by_cases h : 0 < req.length
        · rw [pyCheck_ok h, ok_bind, ok_bind]
        · rw [pyCheck_err h]; rfl

end Khepri
