import Verif.Lemmas.Ez
import Verif.Props.TmatPhysics
import Verif.Spec.Draw

/-!
# C53, C67: project files

`expand cfg n name` is the layer sequence a name stands for (`Spec/Ez.lean`): it exists for some `n` exactly when every
name is known and no stack contains itself.
-/

namespace Khepri

open Matrix Complex

section C53
variable {cfg : EzConfig} {m fuel : ℕ} {device : String} {L : List String}

/-- **C53.** What is computed is what is needed, once each: the required layers are those of the flattened sequence. -/
theorem C53_gather (hr : ∀ name d, cfg.stacking name = some d → 1 ≤ d.reps) (he : expand cfg m device = some L)
    {req : List String} (h : gatherS cfg fuel device [] = .ok req) : (∀ x, x ∈ req ↔ x ∈ L) ∧ req.Nodup := by
  obtain ⟨h1, h2⟩ := gather_spec hr fuel m device L he [] req h
  exact ⟨fun x => by rw [h1]; simp, h2 List.nodup_nil⟩

/-- **C53.** The S-matrix of a device, before the interface, stands for its flattened sequence: a pair of amplitudes is
related by it exactly when amplitudes exist between the layers that are related by the S-matrix of each. -/
theorem C53_stack {n : Type} [Fintype n] [DecidableEq n] {get : String → Option (Matrix (n ⊕ n) (n ⊕ n) ℂ)}
    (hr : ∀ name d, cfg.stacking name = some d → 1 ≤ d.reps) (hg : ∀ x S, get x = some S → cfg.stacking x = none)
    (he : expand cfg m device = some L) {S : Matrix (n ⊕ n) (n ⊕ n) ℂ} (h : stackS cfg get fuel device = .ok (some S))
    (u w : n ⊕ n → ℂ) :
    TScatters S u w ↔ RelChain (fun x u v => ∃ S, get x = some S ∧ TScatters S u v) L u w :=
  stack_spec hr hg fuel m device L he S h u w

/-- **C53.** However layers are grouped in stacks, the same sequence has the same S-matrix. -/
theorem C53_grouping {n : Type} [Fintype n] [DecidableEq n] {get : String → Option (Matrix (n ⊕ n) (n ⊕ n) ℂ)}
    {cfg' : EzConfig} {m' fuel' : ℕ} {device' : String}
    (hr : ∀ name d, cfg.stacking name = some d → 1 ≤ d.reps) (hg : ∀ x S, get x = some S → cfg.stacking x = none)
    (hr' : ∀ name d, cfg'.stacking name = some d → 1 ≤ d.reps) (hg' : ∀ x S, get x = some S → cfg'.stacking x = none)
    (he : expand cfg m device = some L) (he' : expand cfg' m' device' = some L) {S S' : Matrix (n ⊕ n) (n ⊕ n) ℂ}
    (h : stackS cfg get fuel device = .ok (some S)) (h' : stackS cfg' get fuel' device' = .ok (some S')) : S = S' :=
  tscatters_ext fun u w hS => (C53_stack hr' hg' he' h' u w).2 ((C53_stack hr hg he h u w).1 hS)

/-- **C53.** With stacks that have layers in them and a deep enough Python stack, gathering always succeeds, and stacking
fails only if a cascade is singular. -/
theorem C53_total {n : Type} [Fintype n] [DecidableEq n] {get : String → Option (Matrix (n ⊕ n) (n ⊕ n) ℂ)}
    (hr : ∀ name d, cfg.stacking name = some d → 1 ≤ d.reps ∧ d.layers ≠ []) (he : expand cfg m device = some L)
    (hf : m ≤ fuel) (hget : ∀ x ∈ L, ∃ S, get x = some S) :
    (∃ req, gatherS cfg fuel device [] = .ok req ∧ ∀ x, x ∈ req ↔ x ∈ L) ∧
      ((∃ S, stackS cfg get fuel device = .ok (some S)) ∨ stackS cfg get fuel device = .error .linAlg) := by
  obtain ⟨req, h⟩ := gather_total m fuel device L he hf []
  exact ⟨⟨req, h, (C53_gather (fun x d hd => (hr x d hd).1) he h).1⟩, stack_fine hr m fuel device L he hf hget⟩

/-- **C53.** The S-matrix of a device relates the amplitudes below and above it exactly when fields exist that obey
Maxwell's equations in every layer of the flattened sequence, are continuous from each to the next, and are those of the
amplitudes in the incidence medium and in the substrate. -/
theorem C53_device {jv1 : ℝ → ℝ} {pw : ℕ × ℕ} {a1 a2 : R2} {ei ee : PyNum} {l : TLattice} {wl a b : ℝ}
    (h : TLattice.make pw a1 a2 ei ee = .ok l) (hp : pw.1 = pw.2 ∨ pw.2 = 1) (h0 : 0 < pw.1)
    (hr : ∀ name d, cfg.stacking name = some d → 1 ≤ d.reps) (he : expand cfg m device = some L)
    {S Vi Ve : Matrix (TIdx l.shape) (TIdx l.shape) ℂ} (hS : ezDevice jv1 cfg fuel l wl (↑a, ↑b) device = .ok S)
    (hi : l.V l.epsI wl (↑a, ↑b) = .ok Vi) (hee : l.V l.epsE wl (↑a, ↑b) = .ok Ve) (u w : TIdx l.shape → ℂ) :
    TScatters S u w ↔ RelChain (cfg.LayerFields jv1 l wl (↑a, ↑b)) L (Vi *ᵥ u) (Ve *ᵥ w) := by
  obtain ⟨req, Ss, Stot, Si, hg, _, hl, hst, hint, hm⟩ := ezDevice_eq_ok.1 hS
  have hlook := fun x => lookup_forall₂ (P := fun x S => ∃ ly, cfg.layers x = some ly ∧
    ezSolve jv1 cfg l wl (↑a, ↑b) ly = .ok S) (ezLayers_eq_ok hl) (x := x)
  have hreq := (C53_gather hr he hg).1
  have hleaf := gather_leaf fuel device [] req hg (by simp)
  have hSt := C53_stack hr (get := fun name => Ss.lookup name)
    (fun x S hx => (hleaf x ((hlook x).1 S hx).1).1) he hst
  obtain ⟨U, hU, -⟩ : ∃ U, l.U wl (↑a, ↑b) = .ok U ∧ True := by
    unfold tmatInterface at hint
    obtain ⟨U, hU, -⟩ := bind_eq_ok.1 hint
    exact ⟨U, hU, trivial⟩
  have hVU := TLattice.Vi_mul_U hU hi
  have hbij : Function.Bijective (fun u => Vi *ᵥ u) := by
    refine ⟨fun x y hxy => ?_, fun x => ⟨U *ᵥ x, by simp only [mulVec_mulVec, hVU, one_mulVec]⟩⟩
    have hUV := mul_eq_one_comm.1 hVU
    have := congrArg (fun z => U *ᵥ z) hxy
    simpa only [mulVec_mulVec, hUV, one_mulVec] using this
  have hlayer : ∀ x ∈ L, ∀ u v, (∃ S, Ss.lookup x = some S ∧ TScatters S u v) ↔
      cfg.LayerFields jv1 l wl (↑a, ↑b) x (Vi *ᵥ u) (Vi *ᵥ v) := by
    intro x hx u v
    obtain ⟨S', hS'⟩ := (hlook x).2 ((hreq x).2 hx)
    obtain ⟨ly, hly, hsol⟩ := ((hlook x).1 S' hS').2
    unfold ezSolve at hsol
    obtain ⟨⟨isl, host⟩, ho, hsc⟩ := bind_eq_ok.1 hsol
    simp only [hS', Option.some.injEq, exists_eq_left']
    rw [C60_layer h hp h0 hsc hi]
    rw [ezOptics_eq_ok] at ho
    constructor
    · rintro ⟨f, hf, f0, fd⟩
      exact ⟨ly, isl, host, f, hly, ho, hf, f0, fd⟩
    · rintro ⟨ly', isl', host', f, hly', ho', hf, f0, fd⟩
      rw [hly] at hly'
      cases hly'
      obtain ⟨rfl, rfl⟩ := optics_unique ho ho'
      exact ⟨f, hf, f0, fd⟩
  rw [multS_chain hm]
  simp only [C60_interface hint hi hee, hSt]
  have : ∀ v, RelChain (fun x u v => ∃ S, Ss.lookup x = some S ∧ TScatters S u v) L u v ↔
      RelChain (cfg.LayerFields jv1 l wl (↑a, ↑b)) L (Vi *ᵥ u) (Vi *ᵥ v) := fun v => by
    rw [relChain_congr hlayer]
    exact relChain_conj (R := cfg.LayerFields jv1 l wl (↑a, ↑b)) (φ := fun u => Vi *ᵥ u) hbij
  simp only [this]
  constructor
  · rintro ⟨v, hv, e⟩; exact e ▸ hv
  · intro hc
    obtain ⟨v, hv⟩ := hbij.2 (Ve *ᵥ w)
    simp only at hv
    exact ⟨v, hv ▸ hc, hv⟩

/-- **C53.** The drawing is the flattened sequence, from the bottom up, and as high as the depths add up to. -/
theorem C53_drawing (he : expand cfg m device = some L) {z z' : ℝ} {D : List EzDrawn}
    (h : plotLayer cfg fuel device (z, []) = .ok (z', D)) : z' = z + (L.map cfg.depth).sum ∧ DrawnAs cfg L z D := by
  obtain ⟨h1, D', h2, h3⟩ := plot_spec fuel m device L he _ _ h
  simp only [List.nil_append] at h2
  exact ⟨h1, h2 ▸ h3⟩

/-- **C53.** It exists if every layer is of a known material and every disc and rectangle is complete. -/
theorem C53_drawn (hl : ∀ name ly, cfg.layers name = some ly → (∃ e, cfg.materials ly.material = some e) ∧
      ∀ i ∈ ly.geometry, (∃ e, cfg.materials i.material = some e) ∧ (∃ x y, i.center = [x, y]) ∧
        (i.shape = "disc" → ∃ r, i.radius = some r) ∧ (i.shape = "rectangle" → ∃ x y, i.size = some [x, y]))
    (he : expand cfg m device = some L) (hf : m ≤ fuel) (z : ℝ) :
    ∃ z' D, plotLayer cfg fuel device (z, []) = .ok (z', D) := by
  obtain ⟨⟨z', D⟩, h⟩ := plot_total (fun name ly hly => by
    obtain ⟨h1, h2⟩ := hl name ly hly
    refine ⟨h1, fun i hi z d => ?_⟩
    obtain ⟨⟨e, he⟩, ⟨x, y, hc⟩, hd, hrect⟩ := h2 i hi
    unfold plotIsland
    split_ifs with c1 c2
    · obtain ⟨r, hr⟩ := hd c1
      rw [hr, he, hc]
      exact ⟨_, rfl⟩
    · obtain ⟨sx, sy, hs⟩ := hrect c2
      rw [hs, he, hc]
      exact ⟨_, rfl⟩
    · exact ⟨_, rfl⟩) m fuel device L he hf (z, [])
  exact ⟨z', D, h⟩

/-- **C53.** Why repeats must be at least 1: a stack repeated 0 times is solved as if repeated once, and not drawn. -/
theorem C53_zero_repeat {n : Type} [Fintype n] [DecidableEq n] {get : String → Option (Matrix (n ⊕ n) (n ⊕ n) ℂ)}
    {name x : String} (hs : cfg.stacking name = some ⟨[x], some 0⟩) (hg : get name = none) (z : ℝ) :
    stackS cfg get (fuel + 1) name = stackS cfg get fuel x ∧
      plotLayer cfg (fuel + 1) name (z, []) = .ok (z, []) ∧ expand cfg (m + 1) name = (expand cfg m x).map fun _ => [] := by
  refine ⟨?_, ?_, ?_⟩
  · rw [stackS]
    simp only [hg, hs, pyGet, List.getElem?_cons_zero, ok_bind, List.tail_cons, ezRepeat, Option.getD_some]
    cases stackS cfg get fuel x <;> simp [bind, Except.bind, pure, Except.pure]
  · rw [plotLayer]
    simp [hs, pure, Except.pure]
  · rw [expand]
    simp only [hs, EzStack.reps, List.mapM_cons]
    cases expand cfg m x <;> simp

end C53

section C67

/-- **C67.** Which numbers of the project are solved for: a disc has the centre and radius of the project, in units of
the lattice size; a rectangle has its lower left corner at the `center` and its upper right corner at the `size`. -/
theorem C67_shapes_partial {cfg : EzConfig} {ly : EzLayer} {islands : List (TShape × ℂ)} {host : ℂ}
    (h : ezOptics cfg ly = .ok (islands, host)) : ly.geometry.length = islands.length ∧
    ∀ k (hk : k < ly.geometry.length) (hk' : k < islands.length), ∀ x y : ℝ, ly.geometry[k].center = [x, y] →
      (ly.geometry[k].shape = "disc" → ∀ r, ly.geometry[k].radius = some r →
        islands[k].1 = .shape (.disc (x * cfg.a) (y * cfg.a) (r * cfg.a))) ∧
      (ly.geometry[k].shape = "rectangle" → ly.geometry[k].radius = none → ∀ sx sy, ly.geometry[k].size = some [sx, sy] →
        islands[k].1 = .shape (.rectangle (x * cfg.a) (y * cfg.a) (sx * cfg.a) (sy * cfg.a))) := by
  obtain ⟨-, hf⟩ := ezOptics_eq_ok.1 h
  refine ⟨hf.length_eq, fun k hk hk' x y hc => ?_⟩
  obtain ⟨hs, -⟩ := List.forall₂_iff_get.1 hf |>.2 k hk hk'
  simp only [List.get_eq_getElem] at hs
  rw [← ezShape_solved] at hs
  refine ⟨fun hd r hr => ?_, fun hd hr sx sy hsz => ?_⟩
  · rw [hd, EzIsland.params, hr, hc] at hs
    simpa [ezShape, eq_comm] using hs
  · rw [hd, EzIsland.params, hr, hsz, hc] at hs
    simpa [ezShape, eq_comm] using hs

/-- **C67.** Discs are solved where they are drawn. -/
theorem C67_disc_partial {cfg : EzConfig} {ly : EzLayer} {i : EzIsland} {islands : List (TShape × ℂ)} {host : ℂ} {z d : ℝ}
    {D : List EzDrawn} (ha : 0 < cfg.a) (hg : ly.geometry = [i]) (hd : i.shape = "disc")
    (h : ezOptics cfg ly = .ok (islands, host)) (hp : plotIsland cfg z d i = .ok D) :
    ∃ s eps solid, islands = [(.shape s, eps)] ∧ D = [solid] ∧
      ∀ p : R2, Island.Covers ⟨s, eps⟩ (p.1 * cfg.a, p.2 * cfg.a) ↔ solid.Section p := by
  unfold plotIsland at hp
  rw [if_pos hd] at hp
  simp only [bind_eq_ok, pyKey_eq_ok] at hp
  obtain ⟨r, hr, _, _, hp⟩ := hp
  split at hp
  · rename_i x y hc
    simp only [pure, Except.pure, Except.ok.injEq] at hp
    subst hp
    obtain ⟨hl, hsh⟩ := C67_shapes_partial h
    rw [hg] at hl
    obtain ⟨⟨sh, eps⟩, rfl⟩ := List.length_eq_one_iff.1 hl.symm
    have := (hsh 0 (by simp [hg]) (by simp) x y (by simpa [hg] using hc)).1 (by simpa [hg] using hd) r (by simpa [hg] using hr)
    simp only [List.getElem_cons_zero] at this
    subst this
    refine ⟨_, eps, _, rfl, rfl, fun p => ?_⟩
    simp only [Island.Covers, EzDrawn.Section]
    have e : (p.1 * cfg.a - x * cfg.a) ^ 2 + (p.2 * cfg.a - y * cfg.a) ^ 2 = ((p.1 - x) ^ 2 + (p.2 - y) ^ 2) * cfg.a ^ 2 := by
      ring
    rw [e, mul_pow, mul_lt_mul_iff_left₀ (by positivity), mul_nonneg_iff_of_pos_right ha]
  · simp at hp

/-- **C67.** Rectangles are solved where they are drawn exactly when their `center` is the origin of the cell. -/
theorem C67_rectangle_partial {cfg : EzConfig} {ly : EzLayer} {i : EzIsland} {islands : List (TShape × ℂ)} {host : ℂ}
    {x y sx sy z d : ℝ} {D : List EzDrawn} (ha : 0 < cfg.a) (hg : ly.geometry = [i]) (hd : i.shape = "rectangle")
    (hr : i.radius = none) (hc : i.center = [x, y]) (hs : i.size = some [sx, sy]) (hx : 0 ≤ sx) (hy : 0 ≤ sy)
    (h : ezOptics cfg ly = .ok (islands, host)) (hp : plotIsland cfg z d i = .ok D) :
    ∃ s eps solid, islands = [(.shape s, eps)] ∧ D = [solid] ∧
      ((∀ p : R2, Island.Covers ⟨s, eps⟩ (p.1 * cfg.a, p.2 * cfg.a) ↔ solid.Section p) ↔ x = 0 ∧ y = 0) := by
  obtain ⟨hl, hsh⟩ := C67_shapes_partial h
  rw [hg] at hl
  obtain ⟨⟨sh, eps⟩, rfl⟩ := List.length_eq_one_iff.1 hl.symm
  have := (hsh 0 (by simp [hg]) (by simp) x y (by simpa [hg] using hc)).2 (by simpa [hg] using hd) (by simpa [hg] using hr)
    sx sy (by simpa [hg] using hs)
  simp only [List.getElem_cons_zero] at this
  subst this
  have hD : D = [.box x y z sx sy d] := by
    unfold plotIsland at hp
    rw [if_neg (by rw [hd]; decide), if_pos hd] at hp
    simp only [bind_eq_ok, pyKey_eq_ok, hs, hc] at hp
    obtain ⟨_, _, _, hsz, hp⟩ := hp
    cases hsz
    simpa [pure, Except.pure, eq_comm] using hp
  refine ⟨_, eps, _, rfl, hD, ?_⟩
  simp only [Island.Covers, EzDrawn.Section, mul_le_mul_iff_left₀ ha]
  constructor
  · intro H
    obtain ⟨⟨h1, h2⟩, h3, h4⟩ := (H (x + sx, y + sy)).2 ⟨⟨by simpa, le_rfl⟩, by simpa, le_rfl⟩
    obtain ⟨⟨h5, h6⟩, h7, h8⟩ := (H (sx, sy)).1 ⟨⟨by simp only at *; linarith, le_rfl⟩, by simp only at *; linarith, le_rfl⟩
    simp only at *
    constructor <;> linarith
  · rintro ⟨rfl, rfl⟩ p
    simp

/-- **C67** is false: a bar a quarter of the cell wide, half way across the cell, is solved with an area of minus a
quarter of the cell, so that putting glass into vacuum lowers the average permittivity. -/
theorem C67_counterexample (jv1 : ℝ → ℝ) : ∃ (cfg : EzConfig) (ly : EzLayer) (i : EzIsland) (s : Shape),
    cfg.a = 1 ∧ ly.geometry = [i] ∧ i.shape = "rectangle" ∧ i.center = [1 / 2, 0] ∧ i.size = some [1 / 4, 1] ∧
    ezOptics cfg ly = .ok ([(.shape s, 4)], 1) ∧
    (∀ z d, plotIsland cfg z d i = .ok [.box (1 / 2) 0 z (1 / 4) 1 d]) ∧
    transformShape jv1 s (0, 0) 1 = .ok (-(1 / 4)) := by
  let i : EzIsland := ⟨"rectangle", [1 / 2, 0], none, some [1 / 4, 1], "Glass"⟩
  let cfg : EzConfig := ⟨1, (1, 0), (0, 1), (3, 3), "Air", "Air",
    fun x => if x = "Glass" then some 4 else if x = "Air" then some 1 else none, fun _ => none, fun _ => none⟩
  refine ⟨cfg, ⟨"Air", 1, [i]⟩, i, .rectangle (1 / 2) 0 (1 / 4) 1, rfl, rfl, rfl, rfl, rfl, ?_, ?_, ?_⟩
  · rw [ezOptics_eq_ok]
    refine ⟨⟨1, by simp [cfg], by simp⟩, .cons ⟨⟨rfl, 1 / 2, 0, 1 / 4, 1, ?_, ?_⟩, 4, ?_, ?_⟩ .nil⟩
    · exact numbers_iff.2 rfl
    · simp [cfg]
    · simp [cfg, i]
    · simp
  · intro z d
    simp [plotIsland, i, cfg, pyKey, pure, Except.pure, bind, Except.bind]
  · norm_num [transformShape, transformRectangle, fexpz]

end C67

/-- Two layers of vacuum, grouped and repeated. -/
noncomputable def vacuumProject : EzConfig where
  a := 1
  a1 := (1, 0)
  a2 := (0, 1)
  pw := (3, 3)
  incident := "Air"
  substrate := "Air"
  materials := fun x => if x = "Air" then some 1 else none
  layers := fun x => if x = "A" then some ⟨"Air", 1 / 5, []⟩ else if x = "B" then some ⟨"Air", 4 / 5, []⟩ else none
  stacking := fun x => if x = "AB" then some ⟨["A", "B"], some 2⟩ else if x = "T" then some ⟨["AB", "A"], none⟩ else none

theorem vacuum_expand : expand vacuumProject 3 "T" = some ["A", "B", "A", "B", "A"] := by
  simp [expand, vacuumProject, EzStack.reps, List.mapM_cons, List.replicate]

theorem vacuum_reps : ∀ name d, vacuumProject.stacking name = some d → 1 ≤ d.reps ∧ d.layers ≠ [] := by
  intro name d h
  simp only [vacuumProject] at h
  split_ifs at h
  · cases h; simp [EzStack.reps]
  · cases h; simp [EzStack.reps]

/-- Non-vacuity of C53: the drawing of the project is 2.2 units high. -/
example : ∃ D, plotLayer vacuumProject 3 "T" (0, []) = .ok (11 / 5, D) ∧
    DrawnAs vacuumProject ["A", "B", "A", "B", "A"] 0 D := by
  obtain ⟨z', D, h⟩ := C53_drawn (cfg := vacuumProject) (fun name ly h => by
    simp only [vacuumProject] at h ⊢
    split_ifs at h <;> cases h <;> simp) vacuum_expand le_rfl 0
  obtain ⟨h1, h2⟩ := C53_drawing vacuum_expand h
  have : z' = 11 / 5 := by rw [h1]; simp [EzConfig.depth, vacuumProject]; norm_num
  exact ⟨D, this ▸ h, h2⟩

/-- A cascade of two transparent layers. -/
theorem multS_transparent {n : Type} [Fintype n] [DecidableEq n] (A B C D : Matrix n n ℂ) :
    multS (fromBlocks A 0 0 B) (fromBlocks C 0 0 D) = .ok (fromBlocks (C * A) 0 0 (B * D)) := by
  have h1 : ∀ X : Matrix n n ℂ, npSolve (1 : Matrix n n ℂ) X = .ok X := fun X => by
    rw [npSolve_ok (by simp)]; simp
  simp [multS, h1, pure, Except.pure, bind, Except.bind]

/-- Non-vacuity of C53: every hypothesis of C53_device is met by the project above. -/
example (jv1 : ℝ → ℝ) : ∃ (l : TLattice) (S V : Matrix (TIdx l.shape) (TIdx l.shape) ℂ),
    TLattice.make (3, 3) (1, 0) (0, 1) (.float 1) (.float 1) = .ok l ∧ ezLattice vacuumProject = .ok l ∧
    ezDevice jv1 vacuumProject 3 l (1 / 2) (((0 : ℝ) : ℂ), ((0 : ℝ) : ℂ)) "T" = .ok S ∧
    l.V l.epsI (1 / 2) (((0 : ℝ) : ℂ), ((0 : ℝ) : ℂ)) = .ok V ∧ l.V l.epsE (1 / 2) (((0 : ℝ) : ℂ), ((0 : ℝ) : ℂ)) = .ok V := by
  obtain ⟨l, h, hb⟩ := unit_tlattice (3, 3) rfl (.float 1) (.float 1)
  obtain ⟨-, -, -, har, h1, h2⟩ := TLattice.make_fields h
  have hk := unit3_kz h hb
  rw [← h1] at hk
  have hz : (((0 : ℝ) : ℂ), ((0 : ℝ) : ℂ)) = ((0, 0) : ℂ × ℂ) := by simp
  have hk0 : ∀ k, flatT l.shape (l.kz l.epsI (1 / 2) (((0 : ℝ) : ℂ), ((0 : ℝ) : ℂ))) k ≠ 0 := by
    intro k
    obtain ⟨r, hr, e⟩ := hk k
    rw [hz, e]
    exact_mod_cast hr.ne'
  have hv1 : l.epsI.val = ((1 : ℝ) : ℂ) := by rw [h1]; rfl
  have hpos : ∀ r, l.epsI = .float r → 0 ≤ r := by rw [h1]; intro r hr; cases hr; norm_num
  obtain ⟨⟨U, hU⟩, V, hV⟩ := C44_exists (l := l) (wl := 1 / 2) (by norm_num) (by rw [hv1]; simp) hpos hk0
  obtain ⟨Sint, hint, hneut⟩ := C44_neutral (h2.trans h1.symm) hU hV
  have hclear : ∀ k, l.wave (((0 : ℝ) : ℂ), ((0 : ℝ) : ℂ)) k = 0 ∨ 1 / 2 ^ 52 ≤
      ‖(l.wave (((0 : ℝ) : ℂ), ((0 : ℝ) : ℂ)) k).1‖ ^ 2 + ‖(l.wave (((0 : ℝ) : ℂ), ((0 : ℝ) : ℂ)) k).2‖ ^ 2 := by
    rw [hz]; exact unit_tlattice_clear h hb
  have hlay := fun depth : ℝ => C60_uniform (jv1 := jv1) (islands := []) (host := 1) (wl := 1 / 2) (a := 0) (b := 0)
    h (Or.inl rfl) (by norm_num) (by simp) (by simp) (by simp) (by rw [hv1]; simp) (by rw [hv1]; simp) (by norm_num) hpos hk0 hclear
    depth 3
  have hlay' : ∀ depth : ℝ, ∃ A B, tmatScattering jv1 l [] 1 (1 / 2) (((0 : ℝ) : ℂ), ((0 : ℝ) : ℂ)) depth 3 =
      .ok (fromBlocks A 0 0 B) := fun depth => ⟨_, _, by rw [hlay, ← fromBlocks_diagonal]⟩
  obtain ⟨A1, B1, e1⟩ := hlay' (1 / 5)
  obtain ⟨A2, B2, e2⟩ := hlay' (4 / 5)
  have hreq : gatherS vacuumProject 3 "T" [] = .ok ["A", "B"] := by
    simp [gatherS, vacuumProject, bind, Except.bind, pure, Except.pure]
  have hls : ezLayers jv1 vacuumProject l (1 / 2) (((0 : ℝ) : ℂ), ((0 : ℝ) : ℂ)) ["A", "B"] =
      .ok [("A", fromBlocks A1 0 0 B1), ("B", fromBlocks A2 0 0 B2)] := by
    unfold ezLayers
    rw [mapM_eq_ok]
    refine .cons ?_ (.cons ?_ .nil)
    · simp only [vacuumProject, pyKey, ezSolve, ezOptics, pure, Except.pure, List.mapM_nil, if_true, ok_bind, mul_one,
        Complex.ofReal_one, e1]
    · simp only [vacuumProject, pyKey, ezSolve, ezOptics, pure, Except.pure, List.mapM_nil, if_true, ok_bind, mul_one,
        Complex.ofReal_one, e2, String.reduceEq, if_false]
  have hstack : ∃ X, stackS vacuumProject (fun name => List.lookup name
      [("A", fromBlocks A1 0 0 B1), ("B", fromBlocks A2 0 0 B2)]) 3 "T" = .ok (some X) := by
    simp [stackS, vacuumProject, pyGet, ezMatmul, multS_transparent, ezRepeat, pure, Except.pure, List.lookup,
      bind, Except.bind, List.range_succ]
  obtain ⟨X, hX⟩ := hstack
  refine ⟨l, X, V, h, ?_, ezDevice_eq_ok.2 ⟨["A", "B"], _, X, Sint, hreq, by simp, hls, hX, hint, (hneut X).1⟩, hV, ?_⟩
  · simp only [ezLattice, vacuumProject, pyKey, if_true, ok_bind, mul_one]
    exact h
  · rw [h2, ← h1]; exact hV

end Khepri
