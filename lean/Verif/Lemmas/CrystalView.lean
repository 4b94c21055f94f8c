import Verif.Spec.Crystal
import Verif.Lemmas.Crystal
import Verif.Lemmas.FormSolve

set_option linter.unusedSectionVars false

namespace Khepri

open Matrix

variable {N : ℕ}

/-- The layer after `solve`, in terms of what was computed. -/
noncomputable def Layer.store (l : Layer N) (r : Solved N) : Layer N :=
  { l with
    S := some r.S
    W := if l.fields then some r.W else none
    V := if l.fields then some r.V else none
    L := if l.fields then some r.L else none
    IC := if l.fields then some r.IC else none }

theorem Layer.solve_eq_ok {lib : NumLib} {l l' : Layer N} {kp : ℂ × ℂ} {wl : ℝ} :
    l.solve lib kp wl = .ok l' ↔ ∃ r, l.form.solve lib l.expansion l.depth kp wl = .ok r ∧
      l' = l.store r := by
  simp only [Layer.solve, bind_eq_ok, pure, Except.pure, Except.ok.injEq, Layer.store,
    eq_comm (b := l')]

theorem AnyLayer.solve_plain {lib : NumLib} {l : Layer N} {a : AnyLayer N} {kp : ℂ × ℂ} {wl : ℝ} :
    (AnyLayer.plain l).solve lib kp wl = .ok a ↔ ∃ r, l.form.solve lib l.expansion l.depth kp wl = .ok r ∧
      a = .plain (l.store r) := by
  simp only [AnyLayer.solve, bind_eq_ok, Layer.solve_eq_ok, pure, Except.pure, Except.ok.injEq]
  constructor
  · rintro ⟨_, ⟨r, h, rfl⟩, h'⟩; exact ⟨r, h, h'.symm⟩
  · rintro ⟨r, h, h'⟩; exact ⟨_, ⟨r, h, rfl⟩, h'.symm⟩

/-- Everything known after solving a standard device. -/
structure SolvedDevice (lib : NumLib) (c c' : Crystal N) (stack : List String) (mask : List Bool)
    (lr : Layer N) (Ls : List (Layer N)) (lt : Layer N) (er et : ℂ) (src : Source)
    (kx ky : Fin N → ℂ) (W0 V0 : Mat2 N) (rr : Solved N) (rs : List (Solved N)) (rt : Solved N)
    (st : Stacked (Fin N ⊕ Fin N)) : Prop where
  source : c.source = some src
  wl : src.wavelength ≠ 0
  kv : ∃ kz, c.expansion.kVectors src.kp src.wavelength 1 = .ok (kx, ky, kz)
  gap : freeSpaceEigenmodes kx ky = .ok (W0, V0)
  er_ne : er ≠ 0
  et_ne : et ≠ 0
  ref_modes : halfSpaceModes kx ky er = .ok (rr.W, rr.V, rr.L)
  ref_scat : reflectionScatmat W0 V0 rr.W rr.V = .ok rr.S
  ref_ic : rr.IC = .num (1 / er)
  trans_modes : halfSpaceModes kx ky et = .ok (rt.W, rt.V, rt.L)
  trans_scat : transmissionScatmat W0 V0 rt.W rt.V = .ok rt.S
  trans_ic : rt.IC = .num (1 / et)
  lay : List.Forall₂ (fun l r => LayerSolved lib c.expansion l.form l.depth kx ky W0 V0
    (2 * Real.pi / src.wavelength) r) Ls rs
  stack_ok : stackLayers (rr.S :: (rs.map Solved.S ++ [rt.S])) (true :: (mask ++ [true])) = .ok st
  ref' : c'.layers "Sref" = some (.plain (lr.store rr))
  trans' : c'.layers "Strans" = some (.plain (lt.store rt))
  lay' : List.Forall₂ (fun x q => c'.layers x = some (.plain (Layer.store q.1 q.2))) stack (Ls.zip rs)
  pos' : Crystal.positions false (0 :: (Ls.map Layer.depth ++ [0])) = .ok c'.stackPositions
  rest' : c' = { c with layers := c'.layers, stackPositions := c'.stackPositions, stacked := some st }

theorem Forall₂.and' {α β : Type} {R S : α → β → Prop} {l : List α} {l' : List β}
    (h : List.Forall₂ R l l') (h' : List.Forall₂ S l l') :
    List.Forall₂ (fun a b => R a b ∧ S a b) l l' := by
  induction h with
  | nil => exact .nil
  | cons h1 _ ih => cases h' with
    | cons h2 t => exact .cons ⟨h1, h2⟩ (ih t)

theorem forall₂_functional {α β : Type} {R : α → β → Prop} (hR : ∀ a b b', R a b → R a b' → b = b')
    {l : List α} {m m' : List β} (h : List.Forall₂ R l m) (h' : List.Forall₂ R l m') : m = m' := by
  induction h generalizing m' with
  | nil => cases h'; rfl
  | cons h1 _ ih => cases h' with
    | cons h2 t => rw [hR _ _ _ h1 h2, ih t]

theorem map_zip_snd {α β γ : Type} (f : β → γ) : ∀ {l : List α} {m : List β}, l.length = m.length →
    (l.zip m).map (fun q => f q.2) = m.map f
  | [], [], _ => rfl
  | a :: l, b :: m, h => by
    simp only [List.zip_cons_cons, List.map_cons, List.cons.injEq, true_and]
    exact map_zip_snd f (by simpa using h)

theorem map_zip_fst {α β γ : Type} (f : α → γ) : ∀ {l : List α} {m : List β}, l.length = m.length →
    (l.zip m).map (fun q => f q.1) = l.map f
  | [], [], _ => rfl
  | a :: l, b :: m, h => by
    simp only [List.zip_cons_cons, List.map_cons, List.cons.injEq, true_and]
    exact map_zip_fst f (by simpa using h)

theorem solvedDevice {lib : NumLib} {order : List String} {c c' : Crystal N} {stack : List String}
    {mask : List Bool} {lr lt : Layer N} {Ls : List (Layer N)} {er et : ℂ}
    (hd : StandardDevice c stack mask lr Ls lt er et)
    (ho : SetOrder ("Sref" :: (stack ++ ["Strans"])) order) (h : c.solve lib order = .ok c') :
    ∃ src kx ky W0 V0 rr rs rt st,
      SolvedDevice lib c c' stack mask lr Ls lt er et src kx ky W0 V0 rr rs rt st := by
  obtain ⟨src, names, ls, pos, Ss, st, hs, hn, h1, h2, hls, hpos, hSs, hst, hc⟩ :=
    (Crystal.solve_eq_ok ho.1).1 h
  rw [hd.stacking, Option.some.injEq] at hn
  subst hn
  -- the entrance
  obtain ⟨a, a', ha, ha', ha''⟩ := h1 "Sref" ((ho.2 _).2 (by simp))
  rw [hd.ref, Option.some.injEq] at ha
  subst ha
  obtain ⟨rr, hrr, rfl⟩ := AnyLayer.solve_plain.1 ha'
  rw [hd.ref_form] at hrr
  obtain ⟨kx, ky, kz, W0, V0, hk, h0, her, hrm, hrS, hrI⟩ := Form.solve_halfInc hrr
  -- the exit
  obtain ⟨b, b', hb, hb', hb''⟩ := h1 "Strans" ((ho.2 _).2 (by simp))
  rw [hd.trans, Option.some.injEq] at hb
  subst hb
  obtain ⟨rt, hrt, rfl⟩ := AnyLayer.solve_plain.1 hb'
  rw [hd.trans_form] at hrt
  obtain ⟨kx', ky', kz', W0', V0', hk', h0', het, htm, htS, htI⟩ := Form.solve_halfTrn hrt
  rw [hd.ref_exp] at hk
  rw [hd.trans_exp, hk, Except.ok.injEq, Prod.mk.injEq, Prod.mk.injEq] at hk'
  obtain ⟨rfl, rfl, rfl⟩ := hk'
  rw [h0, Except.ok.injEq, Prod.mk.injEq] at h0'
  obtain ⟨rfl, rfl⟩ := h0'
  have hwl := (kVectors_eq_ok.1 hk).1
  -- the layers
  have hlay : ∀ (stk : List String) (Ls : List (Layer N)), (∀ x ∈ stk, x ∈ order) →
      List.Forall₂ (fun x l => c.layers x = some (.plain l) ∧ l.form.isLayer ∧
        l.expansion = c.expansion) stk Ls →
      ∃ rs : List (Solved N), List.Forall₂ (fun l r => LayerSolved lib c.expansion l.form l.depth kx ky W0 V0
        (2 * Real.pi / src.wavelength) r) Ls rs ∧
        List.Forall₂ (fun x q => c'.layers x = some (.plain (Layer.store q.1 q.2))) stk (Ls.zip rs) := by
    intro stk
    induction stk with
    | nil =>
      intro Ls _ h
      cases h
      exact ⟨[], .nil, .nil⟩
    | cons x stk ih =>
      intro Ls hm h
      cases h with
      | cons hx ht =>
        rename_i l Ls
        obtain ⟨rs, hr1, hr2⟩ := ih Ls (fun y hy => hm y (by simp [hy])) ht
        obtain ⟨hx1, hx2, hx3⟩ := hx
        obtain ⟨d, d', hd1, hd2, hd3⟩ := h1 x (hm x (by simp))
        rw [hx1, Option.some.injEq] at hd1
        subst hd1
        obtain ⟨r, hr, rfl⟩ := AnyLayer.solve_plain.1 hd2
        obtain ⟨kx', ky', kz', W0', V0', hk', h0', hS⟩ := Form.solve_layer hx2 hr
        rw [hx3, hk, Except.ok.injEq, Prod.mk.injEq, Prod.mk.injEq] at hk'
        obtain ⟨rfl, rfl, rfl⟩ := hk'
        rw [h0, Except.ok.injEq, Prod.mk.injEq] at h0'
        obtain ⟨rfl, rfl⟩ := h0'
        rw [hx3] at hS
        exact ⟨r :: rs, .cons hS hr1, .cons hd3 hr2⟩
  obtain ⟨rs, hr1, hr2⟩ := hlay stack Ls (fun x hx => (ho.2 x).2 (by simp [hx])) hd.layers
  -- the lists read back
  have hls' : ls = .plain (lr.store rr) ::
      ((Ls.zip rs).map (fun q => AnyLayer.plain (Layer.store q.1 q.2)) ++ [.plain (lt.store rt)]) := by
    have hz : List.Forall₂ (fun x l => c'.layers x = some l) ("Sref" :: (stack ++ ["Strans"]))
        (.plain (lr.store rr) ::
          ((Ls.zip rs).map (fun q => AnyLayer.plain (Layer.store q.1 q.2)) ++ [.plain (lt.store rt)])) := by
      refine .cons ha'' ?_
      refine List.rel_append ?_ (.cons hb'' .nil)
      rw [List.forall₂_map_right_iff]
      exact hr2
    exact forall₂_functional (fun a b b' h h' => by rw [h] at h'; exact Option.some.inj h') hls hz
  have hlen : Ls.length = rs.length := hr1.length_eq
  have hSs' : Ss = rr.S :: (rs.map Solved.S ++ [rt.S]) := by
    rw [hls'] at hSs
    have hz : List.Forall₂ (fun (l : AnyLayer N) S => l.S = some S) (.plain (lr.store rr) ::
        ((Ls.zip rs).map (fun q => AnyLayer.plain (Layer.store q.1 q.2)) ++ [.plain (lt.store rt)]))
        (rr.S :: (rs.map Solved.S ++ [rt.S])) := by
      refine .cons rfl (List.rel_append ?_ (.cons rfl .nil))
      rw [List.forall₂_map_left_iff, ← map_zip_snd Solved.S hlen, List.forall₂_map_right_iff]
      exact List.forall₂_same.2 fun _ _ => rfl
    exact forall₂_functional (fun a b b' h h' => by rw [h] at h'; exact Option.some.inj h') hSs hz
  have hdep : ls.map AnyLayer.depth = 0 :: (Ls.map Layer.depth ++ [0]) := by
    rw [hls']
    have : (AnyLayer.depth ∘ fun q : Layer N × Solved N => AnyLayer.plain (q.1.store q.2)) =
        fun q => q.1.depth := rfl
    simp only [List.map_cons, List.map_append, List.map_map, List.map_nil, this, map_zip_fst _ hlen]
    simp only [AnyLayer.depth, Layer.store, hd.ref_depth, hd.trans_depth]
  subst hSs'
  refine ⟨src, kx, ky, W0, V0, rr, rs, rt, st, hs, hwl, ⟨kz, hk⟩, h0, her, het, hrm, hrS, hrI, htm, htS,
    htI, hr1, ?_, ha'', hb'', hr2, ?_, ?_⟩
  · rw [← hd.retain]; exact hst
  · rw [← hdep, ← hd.void, hpos, hc]
  · rw [hc]

section
variable {lib : NumLib} {c c' : Crystal N} {stack : List String} {mask : List Bool}
  {lr lt : Layer N} {Ls : List (Layer N)} {er et : ℂ} {src : Source} {kx ky : Fin N → ℂ}
  {W0 V0 : Mat2 N} {rr rt : Solved N} {rs : List (Solved N)} {st : Stacked (Fin N ⊕ Fin N)}

/-- The total matrix, as a chain of fields through the layers' modes. -/
theorem SolvedDevice.fieldChain (hm : mask.length = stack.length)
    (hl : List.Forall₂ (fun (_ : String) (_ : Layer N) => True) stack Ls)
    (h : SolvedDevice lib c c' stack mask lr Ls lt er et src kx ky W0 V0 rr rs rt st)
    (p q : Port (Fin N ⊕ Fin N)) :
    Scatters st.Stot p q ↔
      FieldChain ((Ls.zip rs).map fun x => ⟨x.2.W, x.2.V, x.2.L, x.1.depth * (2 * Real.pi / src.wavelength)⟩)
        (fieldOf rr.W rr.V p) (fieldOf rt.W rt.V q) := by
  have hlen : Ls.length = rs.length := h.lay.length_eq
  have hm' : (true :: (mask ++ [true])).length = (rr.S :: (rs.map Solved.S ++ [rt.S])).length := by
    simp [hm, hl.length_eq, hlen]
  obtain ⟨h1, -⟩ := (stackLayers_exists hm' st.Stot).1 ⟨st, h.stack_ok, rfl⟩
  rw [scatters_leftFold h1]
  simp only [scatters_id, exists_eq_left']
  let In : List (LayerIn (Fin N ⊕ Fin N)) :=
    (Ls.zip rs).map fun x => ⟨x.2.W, x.2.V, x.2.L, x.1.depth⟩
  have hf : List.Forall₂ (fun (L : LayerIn (Fin N ⊕ Fin N)) S =>
      buildScatmat L.W L.V W0 V0 L.lam L.depth (2 * Real.pi / src.wavelength) = .ok S)
      In (rs.map Solved.S) := by
    have := h.lay
    clear * - this
    induction this with
    | nil => exact .nil
    | cons h1 _ ih => exact .cons h1.scat ih
  rw [device_chain h.ref_scat h.trans_scat hf]
  simp only [In, List.map_map]
  rfl

theorem SolvedDevice.maxwell (he : EigContract (lib.eig N)) 
    (h : SolvedDevice lib c c' stack mask lr Ls lt er et src kx ky W0 V0 rr rs rt st) :
    ∃ Ms : List (Mat2 N × Mat2 N × ℝ),
      List.Forall₂ (fun l M => ∃ C, Permittivity lib.jv1 c.expansion l.form C ∧ C.det ≠ 0 ∧
        M = (maxwellP kx ky C, maxwellQ kx ky C, l.depth * (2 * Real.pi / src.wavelength))) Ls Ms ∧
      ∀ F G, FieldChain ((Ls.zip rs).map fun x =>
          ⟨x.2.W, x.2.V, x.2.L, x.1.depth * (2 * Real.pi / src.wavelength)⟩) F G ↔
        MaxwellChain Ms F G := by
  have := h.lay
  clear h
  induction this with
  | nil => exact ⟨[], .nil, fun _ _ => Iff.rfl⟩
  | cons h1 _ ih =>
    obtain ⟨Ms, hM, hF⟩ := ih
    obtain ⟨C, hC, hd, hi, -⟩ := h1.perm
    refine ⟨_ :: Ms, .cons ⟨C, hC, hd, rfl⟩ hM, fun F G => ?_⟩
    obtain ⟨hW, hV⟩ := buildScatmat_det h1.scat
    simp only [List.zip_cons_cons, List.map_cons, FieldChain, MaxwellChain, hF]
    simp only [modal_iff_maxwell hW hV (hi he).1 (hi he).2]

/-- The wave vectors of a real source. -/
theorem SolvedDevice.real
    (h : SolvedDevice lib c c' stack mask lr Ls lt er et src kx ky W0 V0 rr rs rt st)
    {kp : ℝ × ℝ} (hk : src.kp = (↑kp.1, ↑kp.2)) :
    kx = (fun i => (orderKx c.expansion kp src.wavelength i : ℂ)) ∧
    ky = (fun i => (orderKy c.expansion kp src.wavelength i : ℂ)) := by
  obtain ⟨kz, hkv⟩ := h.kv
  obtain ⟨-, h1, h2, -⟩ := kVectors_eq_ok.1 hkv
  simp only at h1 h2
  rw [h1, h2, hk]
  constructor <;> (funext i; simp [orderKx, orderKy])

end

end Khepri
