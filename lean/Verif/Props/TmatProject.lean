import Verif.Props.TmatLossyDevice
import Verif.Props.Ez
import Verif.Props.EzSpectrum

/-!
# C102 for projects: the devices of two projects, one of them turned over; C103 without losses
-/

namespace Khepri

open Matrix Complex

/-- The same layers and materials, with the incidence medium and the substrate exchanged. -/
structure EzConfig.Turned (cfg cfg' : EzConfig) : Prop where
  a : cfg'.a = cfg.a
  a1 : cfg'.a1 = cfg.a1
  a2 : cfg'.a2 = cfg.a2
  pw : cfg'.pw = cfg.pw
  incident : cfg'.incident = cfg.substrate
  substrate : cfg'.substrate = cfg.incident
  materials : cfg'.materials = cfg.materials
  layers : cfg'.layers = cfg.layers

variable {jv1 : ℝ → ℝ} {cfg cfg' : EzConfig} {l : TLattice} {wl a b : ℝ} {m m' fuel fuel' : ℕ} {device device' : String}
  {L : List String}

theorem ezLattice_turned (ht : cfg.Turned cfg') (h : ezLattice cfg = .ok l) : ezLattice cfg' = .ok l.turned := by
  obtain ⟨ei, ee, m1, m2, hm⟩ := ezLattice_eq_ok.1 h
  refine ezLattice_eq_ok.2 ⟨ee, ei, ?_, ?_, ?_⟩
  · rw [ht.materials, ht.incident]; exact m2
  · rw [ht.materials, ht.substrate]; exact m1
  · rw [ht.a, ht.a1, ht.a2, ht.pw]; exact TLattice.make_turned hm

theorem layerFields_turned (ht : cfg.Turned cfg') (hw : wl ≠ 0) {kp : ℂ × ℂ} {x : String} {F G : TIdx l.shape → ℂ}
    (h : cfg.LayerFields jv1 l wl kp x F G) : cfg'.LayerFields jv1 l wl kp x (mirror G) (mirror F) := by
  obtain ⟨ly, isl, host, f, hly, ho, hf, rfl, rfl⟩ := h
  refine ⟨ly, isl, host, _, by rw [ht.layers]; exact hly, ?_, tmaxwell_mirror (div_ne_zero (by positivity) hw) hf (ly.depth * cfg.a), ?_, ?_⟩
  · unfold EzLayer.Optics at ho ⊢
    rw [ht.materials, ht.a]; exact ho
  · simp
  · rw [ht.a]; simp

/-- **C102.** The device of a project whose stacks put the same layers in the opposite order, between the exchanged media, has
the S-matrix of the device seen from the other side, however each project groups them in stacks. -/
theorem C102_project (h : ezLattice cfg = .ok l) (hp : cfg.pw.1 = cfg.pw.2 ∨ cfg.pw.2 = 1) (h0 : 0 < cfg.pw.1) (ht : cfg.Turned cfg')
    (hr : ∀ name d, cfg.stacking name = some d → 1 ≤ d.reps) (hr' : ∀ name d, cfg'.stacking name = some d → 1 ≤ d.reps)
    (he : expand cfg m device = some L) (he' : expand cfg' m' device' = some L.reverse)
    {S S' Vi Ve : Matrix (TIdx l.shape) (TIdx l.shape) ℂ} (hS : ezDevice jv1 cfg fuel l wl (↑a, ↑b) device = .ok S)
    (hS' : ezDevice jv1 cfg' fuel' l.turned wl (↑a, ↑b) device' = .ok S')
    (hi : l.V l.epsI wl (↑a, ↑b) = .ok Vi) (hee : l.V l.epsE wl (↑a, ↑b) = .ok Ve) : TTurned S S' := by
  have hw := (TLattice.V_ok hi).1
  obtain ⟨ei, ee, m1, m2, hm⟩ := ezLattice_eq_ok.1 h
  refine turned_of_scatters fun u v huv => ?_
  have h1 := (C53_device hm hp h0 hr he hS hi hee u v).1 huv
  refine (C53_device (TLattice.make_turned hm) hp h0 hr' he' hS' (Vi := Ve) (Ve := Vi) hee hi (faceTurn v) (faceTurn u)).2 ?_
  have e1 := TLattice.V_turn hee v
  have e2 := TLattice.V_turn hi u
  have h2 := relChain_reverse (R' := cfg'.LayerFields jv1 l wl (↑a, ↑b)) (φ := mirror)
    (fun x F G hF => layerFields_turned ht hw hF) h1
  rw [← e1, ← e2] at h2
  exact h2

theorem relChain_pair {α V V' W : Type} {R : α → V → V → Prop} {R' : α → V' → V' → Prop} {φ : V' → V → W}
    (h : ∀ x u v u' v', R x u v → R' x u' v' → φ u' u = φ v' v) :
    ∀ {L : List α} {u w : V} {u' w' : V'}, RelChain R L u w → RelChain R' L u' w' → φ u' u = φ w' w
  | [], _, _, _, _, h1, h2 => by rw [show _ = _ from h1, show _ = _ from h2]
  | x :: L, _, _, _, _, ⟨v, h1, h2⟩, ⟨v', h1', h2'⟩ => (h x _ v _ v' h1 h1').trans (relChain_pair h h2 h2')

/-- **C102.** Devices of projects are reciprocal, on odd grids, however the layers are grouped in stacks. -/
theorem C102_project_reciprocal (h : ezLattice cfg = .ok l) (hp : cfg.pw.1 = cfg.pw.2 ∨ cfg.pw.2 = 1) (ho : cfg.pw.1 % 2 = 1)
    (hr : ∀ name d, cfg.stacking name = some d → 1 ≤ d.reps) (he : expand cfg m device = some L)
    {S S' Vi Ve Vi' Ve' : Matrix (TIdx l.shape) (TIdx l.shape) ℂ} (hS : ezDevice jv1 cfg fuel l wl (↑a, ↑b) device = .ok S)
    (hS' : ezDevice jv1 cfg fuel' l wl (((-a : ℝ) : ℂ), ((-b : ℝ) : ℂ)) device = .ok S')
    (hi : l.V l.epsI wl (↑a, ↑b) = .ok Vi) (hee : l.V l.epsE wl (↑a, ↑b) = .ok Ve)
    (hi' : l.V l.epsI wl (((-a : ℝ) : ℂ), ((-b : ℝ) : ℂ)) = .ok Vi')
    (hee' : l.V l.epsE wl (((-a : ℝ) : ℂ), ((-b : ℝ) : ℂ)) = .ok Ve') : TReciprocal Vi Ve S Vi' Ve' S' := by
  have hw := (TLattice.V_ok hi).1
  obtain ⟨ei, ee, m1, m2, hm⟩ := ezLattice_eq_ok.1 h
  have h1 := ho
  have h2 : cfg.pw.2 % 2 = 1 := by rcases hp with hp | hp <;> omega
  have hs := (TLattice.make_shape_iff hm (by omega)).2 (hp.imp_right le_of_eq)
  intro u v u' v' huv huv'
  have c1 := (C53_device hm hp (by omega) hr he hS hi hee u v).1 huv
  have c2 := (C53_device hm hp (by omega) hr he hS' hi' hee' u' v').1 huv'
  refine relChain_pair (φ := tLorentz) (fun x F G F' G' hF hF' => ?_) c1 c2
  obtain ⟨ly, isl, host, f, hly, hopt, hf, rfl, rfl⟩ := hF
  obtain ⟨ly', isl', host', f', hly', hopt', hf', rfl, rfl⟩ := hF'
  rw [hly] at hly'
  cases hly'
  obtain ⟨rfl, rfl⟩ := optics_unique hopt hopt'
  have hk : 2 * Real.pi / wl ≠ 0 := div_ne_zero (by positivity) hw
  rw [tmaxwell_iff hk] at hf hf'
  refine tlorentz_const (fun k => ?_) (TLattice.coupling_rev hm hs h1 h2 id) (TLattice.coupling_rev hm hs h1 h2 (1 / ·)) hf hf' 0 _
  obtain ⟨g1, g2⟩ := TLattice.g_rev hm hs h1 h2 k
  simp only [TLattice.wave, g1, g2, Prod.mk.injEq]
  push_cast
  constructor <;> ring

/-- A layer of transparent media of islands the code knows how to transform. -/
def TSheet.Transparent (s : TSheet) (jv1 : ℝ → ℝ) (l : TLattice) : Prop :=
  s.host ≠ 0 ∧ s.host.im = 0 ∧ (∀ d ∈ s.islands, d.2 ≠ 0 ∧ d.2.im = 0) ∧ ∀ d ∈ s.islands, ∃ t, l.transform jv1 d.1 = .ok t

section
variable {g : Type} [Fintype g] [DecidableEq g]

/-- **C103.** Parts without gain, when waves carry power in every order on their left: the S-matrices can be cascaded. -/
theorem C103_propagating {Va Vb Vc S1 S2 : Matrix ((g ⊕ g) ⊕ (g ⊕ g)) ((g ⊕ g) ⊕ (g ⊕ g)) ℂ}
    (h1 : TPassive Va Vb S1) (c1 : ∀ v, TScatters S1 0 v → v = 0) (h2 : TPassive Vb Vc S2)
    (sa : ∀ p, p ≠ 0 → TPower (Va *ᵥ Sum.elim 0 p) < 0) (sc : ∀ p, 0 ≤ TPower (Vc *ᵥ Sum.elim p 0)) :
    ∃ S, multS S1 S2 = .ok S := propagating_cascade h1 c1 h2 sa sc

theorem propagating_chain {V : Matrix ((g ⊕ g) ⊕ (g ⊕ g)) ((g ⊕ g) ⊕ (g ⊕ g)) ℂ}
    (sa : ∀ p, p ≠ 0 → TPower (V *ᵥ Sum.elim 0 p) < 0) (sc : ∀ p, 0 ≤ TPower (V *ᵥ Sum.elim p 0))
    {t : List (Matrix ((g ⊕ g) ⊕ (g ⊕ g)) ((g ⊕ g) ⊕ (g ⊕ g)) ℂ)} (ht : ∀ X ∈ t, TLossless V V X ∧ ∀ v, TScatters X 0 v → v = 0)
    {S0 : Matrix ((g ⊕ g) ⊕ (g ⊕ g)) ((g ⊕ g) ⊕ (g ⊕ g)) ℂ} (h0 : TLossless V V S0) (c0 : ∀ v, TScatters S0 0 v → v = 0) :
    ∃ S1, t.foldlM multS S0 = .ok S1 ∧ TLossless V V S1 ∧ ∀ v, TScatters S1 0 v → v = 0 := by
  induction t generalizing S0 with
  | nil => exact ⟨S0, rfl, h0, c0⟩
  | cons X t ih =>
    obtain ⟨hX, cX⟩ := ht X List.mem_cons_self
    obtain ⟨S, hS⟩ := propagating_cascade (fun u v h => (h0 u v h).ge) c0 (fun u v h => (hX u v h).ge) sa sc
    have hc : ∀ w, TScatters S 0 w → w = 0 := fun w hw => by
      obtain ⟨v, hv1, hv2⟩ := (multS_chain hS 0 w).1 hw
      rw [c0 v hv1] at hv2
      exact cX w hv2
    obtain ⟨S1, e, r⟩ := ih (fun Y hY => ht Y (List.mem_cons_of_mem _ hY)) (C61_cascade h0 hX hS) hc
    exact ⟨S1, by rw [List.foldlM_cons, hS]; exact e, r⟩

end

/-- **C103.** A device of any number of transparent layers between transparent media is always computed when every order
propagates in the incidence medium; and it loses no power. -/
theorem C103_lossless {pw : ℕ × ℕ} {a1 a2 : R2} {ei ee : PyNum} (h : TLattice.make pw a1 a2 ei ee = .ok l)
    (hp : pw.1 = pw.2 ∨ pw.2 = 1) (h0 : 0 < pw.1) {sheets : List TSheet} (hs : ∀ s ∈ sheets, s.Transparent jv1 l) (hw : 0 < wl)
    {ri re : ℝ} (hi : l.epsI.val = ri) (hri : 0 < ri) (he : l.epsE.val = re) (hre : 0 < re)
    (hk0 : ∀ k, flatT l.shape (l.kz l.epsI wl (↑a, ↑b)) k ≠ 0) (hk : ∀ k, (flatT l.shape (l.kz l.epsI wl (↑a, ↑b)) k).im = 0) :
    ∃ S Vi Ve, l.deviceOf jv1 wl (↑a, ↑b) sheets = .ok S ∧ l.V l.epsI wl (↑a, ↑b) = .ok Vi ∧ l.V l.epsE wl (↑a, ↑b) = .ok Ve ∧
      TLossless Vi Ve S := by
  have hi0 : l.epsI.val ≠ 0 := by rw [hi]; exact_mod_cast hri.ne'
  have he0 : l.epsE.val ≠ 0 := by rw [he]; exact_mod_cast hre.ne'
  obtain ⟨Vi, hVi⟩ := TLattice.V_exists (kp := (↑a, ↑b)) hw.ne' hi0 (TLattice.rooted_pos hi hri)
  obtain ⟨Ve, hVe⟩ := TLattice.V_exists (l := l) (kp := (↑a, ↑b)) hw.ne' he0 (TLattice.rooted_pos he hre)
  obtain ⟨Si, hSi⟩ := TLattice.interface_exists (l := l) hi hri he hre hw hk0
  have pint := C61_interface hSi hVi hVe
  have hl : ∃ Ss, sheets.mapM (fun s => tmatScattering jv1 l s.islands s.host wl (↑a, ↑b) s.depth s.slicing) = .ok Ss ∧
      ∀ X ∈ Ss, TLossless Vi Vi X ∧ ∀ v, TScatters X 0 v → v = 0 := by
    clear pint hSi
    induction sheets with
    | nil => exact ⟨[], rfl, by simp⟩
    | cons s t ih =>
      obtain ⟨Ss, e, hX⟩ := ih fun x hx => hs x (List.mem_cons_of_mem _ hx)
      obtain ⟨t1, t2, t3, t4⟩ := hs s List.mem_cons_self
      obtain ⟨X, hX1⟩ := C61_exists h hp h0 t1 (fun d hd => (t3 d hd).1) t2 (fun d hd => (t3 d hd).2) t4 hw.ne' hi hri hk0 hk s.depth
        s.slicing
      refine ⟨X :: Ss, ?_, ?_⟩
      · rw [List.mapM_cons, hX1, e]; rfl
      · intro Y hY
        rcases List.mem_cons.1 hY with rfl | hY
        · exact ⟨C61_layer h hp h0 t2 (fun d hd => (t3 d hd).2) hX1 hVi, layer_started h hp h0 hX1⟩
        · exact hX Y hY
  obtain ⟨Ss, e, hX⟩ := hl
  unfold TLattice.deviceOf
  rw [e, hSi]
  cases Ss with
  | nil => exact ⟨Si, Vi, Ve, rfl, hVi, hVe, pint⟩
  | cons S0 t =>
    obtain ⟨x0, c0⟩ := hX S0 List.mem_cons_self
    obtain ⟨S1, e1, l1, c1⟩ := propagating_chain (TLattice.power_neg hi hri hw hVi hk0 hk)
      (fun p => (TLattice.power_sign hi hri hw hVi p).1) (fun Y hY => hX Y (List.mem_cons_of_mem _ hY)) x0 c0
    obtain ⟨S, hS⟩ := propagating_cascade (fun u v h => (l1 u v h).ge) c1 (fun u v h => (pint u v h).ge)
      (TLattice.power_neg hi hri hw hVi hk0 hk) (fun p => (TLattice.power_sign (l := l.turned) he hre hw hVe p).1)
    refine ⟨S, Vi, Ve, ?_, hVi, hVe, C61_cascade l1 pint hS⟩
    show (t.foldlM multS S0 >>= fun S1 => multS S1 Si) = .ok S
    rw [e1]; exact hS

/-- The project `slabProject` turned over. -/
def slabTurned : EzConfig := { slabProject with incident := slabProject.substrate, substrate := slabProject.incident }

/-- A device of one layer, in a project and in a list. -/
theorem slab_device {cfg : EzConfig} (hc : cfg.layers = slabProject.layers) (hm : cfg.materials = slabProject.materials) (ha : cfg.a = 1)
    (hst : cfg.stacking = slabProject.stacking) {kp : ℂ × ℂ} {S : Matrix (TIdx l.shape) (TIdx l.shape) ℂ}
    (hS : l.deviceOf jv1 1 kp [⟨[], 1, 2, 3⟩] = .ok S) : ezDevice jv1 cfg 1 l 1 kp "A" = .ok S := by
  unfold TLattice.deviceOf at hS
  simp only [bind_eq_ok, mapM_eq_ok] at hS
  obtain ⟨Ss, hSs, Si, hSi, hS⟩ := hS
  cases hSs with
  | @cons _ X _ _ hX hn =>
    cases hn
    simp only [bind_eq_ok] at hS
    obtain ⟨S1, h1, hS⟩ := hS
    cases h1
    refine ezDevice_eq_ok.2 ⟨["A"], [("A", X)], X, Si, ?_, by simp, ?_, ?_, hSi, hS⟩
    · simp [gatherS, hc, hst, slabProject]
    · unfold ezLayers
      rw [mapM_eq_ok]
      refine .cons ?_ .nil
      simp only [hc, hm, ha, slabProject, pyKey, ezSolve, ezOptics, pure, Except.pure, List.mapM_nil, if_true, ok_bind, mul_one,
        Complex.ofReal_one, hX]
    · simp [stackS, List.lookup]

/-- Non-vacuity of `C102_project`, `C102_project_reciprocal` and `C103_lossless`: a layer of vacuum from vacuum to a
permittivity 4, and turned over. -/
example (jv1 : ℝ → ℝ) : ∃ (l : TLattice) (S S' Vi Ve : Matrix (TIdx l.shape) (TIdx l.shape) ℂ),
    ezLattice slabProject = .ok l ∧ ezLattice slabTurned = .ok l.turned ∧ slabProject.Turned slabTurned ∧
    expand slabProject 1 "A" = some ["A"] ∧ expand slabTurned 1 "A" = some ["A"].reverse ∧
    ezDevice jv1 slabProject 1 l 1 (((0 : ℝ) : ℂ), ((0 : ℝ) : ℂ)) "A" = .ok S ∧
    ezDevice jv1 slabTurned 1 l.turned 1 (((0 : ℝ) : ℂ), ((0 : ℝ) : ℂ)) "A" = .ok S' ∧ TTurned S S' ∧
    l.V l.epsI 1 (((0 : ℝ) : ℂ), ((0 : ℝ) : ℂ)) = .ok Vi ∧ l.V l.epsE 1 (((0 : ℝ) : ℂ), ((0 : ℝ) : ℂ)) = .ok Ve ∧
    TReciprocal Vi Ve S Vi Ve S := by
  obtain ⟨l, hl, hm, -⟩ := slab_lattice
  obtain ⟨-, -, -, -, h1, h2⟩ := TLattice.make_fields hm
  have hpi := Real.pi_pos
  have z0 : ((0 : ℝ) : ℂ) = 0 := ofReal_zero
  have z1 : (((-0 : ℝ) : ℂ), ((-0 : ℝ) : ℂ)) = (((0 : ℝ) : ℂ), ((0 : ℝ) : ℂ)) := by simp
  have hI : l.epsI.val = ((1 : ℝ) : ℂ) := by rw [h1]; rfl
  have hE : l.epsE.val = ((4 : ℝ) : ℂ) := by rw [h2]; rfl
  have kI : ∀ k, flatT l.shape (l.kz l.epsI 1 (((0 : ℝ) : ℂ), ((0 : ℝ) : ℂ))) k = ((2 * Real.pi : ℝ) : ℂ) := fun k => by
    rw [h1, z0, ← z0]; exact slab_kz hm (by positivity) (by ring) k
  have kE : ∀ k, flatT l.shape (l.kz l.epsE 1 (((0 : ℝ) : ℂ), ((0 : ℝ) : ℂ))) k = ((4 * Real.pi : ℝ) : ℂ) := fun k => by
    rw [h2, z0, ← z0]; exact slab_kz hm (by positivity) (by ring) k
  have nI : ((2 * Real.pi : ℝ) : ℂ) ≠ 0 := by exact_mod_cast (by positivity : 2 * Real.pi ≠ 0)
  have nE : ((4 * Real.pi : ℝ) : ℂ) ≠ 0 := by exact_mod_cast (by positivity : 4 * Real.pi ≠ 0)
  have ht : ∀ l' : TLattice, ∀ s ∈ [(⟨[], 1, 2, 3⟩ : TSheet)], s.Transparent jv1 l' := by
    intro l' s hs
    rw [List.mem_singleton.1 hs]
    exact ⟨one_ne_zero, one_im, by simp, by simp⟩
  obtain ⟨S, Vi, Ve, hS, hVi, hVe, -⟩ := C103_lossless (jv1 := jv1) (wl := 1) (a := 0) (b := 0) hm (Or.inl rfl) one_pos (ht l) one_pos hI one_pos
    hE (by norm_num) (fun k => by rw [kI]; exact nI) (fun k => by rw [kI, ofReal_im])
  obtain ⟨S', -, -, hS', -⟩ := C103_lossless (jv1 := jv1) (wl := 1) (a := 0) (b := 0) (TLattice.make_turned hm) (Or.inl rfl) one_pos (ht l.turned)
    one_pos hE (by norm_num) hI one_pos (fun k => by
      have e : flatT l.turned.shape (l.turned.kz l.turned.epsI 1 (((0 : ℝ) : ℂ), ((0 : ℝ) : ℂ))) k = ((4 * Real.pi : ℝ) : ℂ) := kE k
      rw [e]; exact nE) (fun k => by
      have e : flatT l.turned.shape (l.turned.kz l.turned.epsI 1 (((0 : ℝ) : ℂ), ((0 : ℝ) : ℂ))) k = ((4 * Real.pi : ℝ) : ℂ) := kE k
      rw [e, ofReal_im])
  have hT : slabProject.Turned slabTurned := ⟨rfl, rfl, rfl, rfl, rfl, rfl, rfl, rfl⟩
  have e1 : expand slabProject 1 "A" = some ["A"] := by simp [expand, slabProject]
  have e2 : expand slabTurned 1 "A" = some ["A"].reverse := by simp [expand, slabTurned, slabProject]
  have d1 := slab_device (cfg := slabProject) rfl rfl rfl rfl hS
  have d2 := slab_device (cfg := slabTurned) (l := l.turned) rfl rfl rfl rfl hS'
  refine ⟨l, S, S', Vi, Ve, hl, ezLattice_turned hT hl, hT, e1, e2, d1, d2, ?_, hVi, hVe, ?_⟩
  · exact C102_project hl (Or.inl rfl) one_pos hT (by simp [slabProject]) (by simp [slabTurned, slabProject]) e1 e2 d1 d2 hVi hVe
  · exact C102_project_reciprocal hl (Or.inl rfl) rfl (by simp [slabProject]) e1 d1 (by rw [z1]; exact d1) hVi hVe (by rw [z1]; exact hVi)
      (by rw [z1]; exact hVe)

end Khepri
