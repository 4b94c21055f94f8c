import Verif.Spec.Twisted
import Verif.Lemmas.AnyDevice
import Verif.Lemmas.ExtensionUniform
import Verif.Lemmas.FieldsUser

set_option linter.unusedSectionVars false

/-!
# Maxwell's equations in the joint space of two lattices
-/

namespace Khepri

open Matrix

variable {N : ℕ}

/-- One entry of `maxwellP`, from the entry `z` of the inverse permittivity and `d` of the identity. -/
def pEntry (a b : Bool) (x y x' y' z d : ℂ) : ℂ :=
  match a, b with
  | false, false => x * z * y'
  | false, true => d - x * z * x'
  | true, false => y * z * y' - d
  | true, true => -(y * z * x')

/-- One entry of `maxwellQ`, from the entry `z` of the permittivity and `d` of the identity. -/
def qEntry' (a b : Bool) (x y z d : ℂ) : ℂ :=
  match a, b with
  | false, false => x * y * d
  | false, true => z - x * x * d
  | true, false => y * y * d - z
  | true, true => -(y * x * d)

theorem maxwellP_comp (kx ky : Fin N → ℂ) (C : Matrix (Fin N) (Fin N) ℂ) (a b : Bool) (p q : Fin N) :
    maxwellP kx ky C (comp a p) (comp b q) =
      pEntry a b (kx p) (ky p) (kx q) (ky q) (C⁻¹ p q) (if p = q then 1 else 0) := by
  cases a <;> cases b <;>
    simp [maxwellP, comp, pEntry, Matrix.sub_apply, Matrix.one_apply, diagonal_mul, mul_diagonal]

theorem maxwellQ_comp (kx ky : Fin N → ℂ) (C : Matrix (Fin N) (Fin N) ℂ) (a b : Bool) (p q : Fin N) :
    maxwellQ kx ky C (comp a p) (comp b q) =
      qEntry' a b (kx p) (ky p) (C p q) (if p = q then 1 else 0) := by
  by_cases h : p = q
  · subst h
    cases a <;> cases b <;> simp [maxwellQ, comp, qEntry', Matrix.sub_apply]
  · cases a <;> cases b <;> simp [maxwellQ, comp, qEntry', Matrix.sub_apply, h]

theorem pairEquiv_apply (kind : ℕ) (r i : Fin N) : pairEquiv N kind (r, i) = jointPos kind i r := by
  by_cases h : kind = 0 <;> simp [pairEquiv, jointPos, pairPos, h]

/-- A matrix that couples the orders of the base lattice at equal g-vectors of the other one. -/
def Spread (kind : ℕ) (C1 : Matrix (Fin N) (Fin N) ℂ) (C : Matrix (Fin (N * N)) (Fin (N * N)) ℂ) : Prop :=
  ∀ i j r c, C (jointPos kind i r) (jointPos kind j c) = if i = j then C1 r c else 0

theorem spread_iff {kind : ℕ} {C1 : Matrix (Fin N) (Fin N) ℂ} {C : Matrix (Fin (N * N)) (Fin (N * N)) ℂ} :
    Spread kind C1 C ↔ C = bd (pairEquiv N kind) fun _ => C1 := by
  constructor
  · intro h
    ext p q
    obtain ⟨i, r, rfl⟩ := exists_jointPos kind p
    obtain ⟨j, c, rfl⟩ := exists_jointPos kind q
    rw [h i j r c, ← pairEquiv_apply, ← pairEquiv_apply, bd_apply]
  · rintro rfl i j r c
    rw [← pairEquiv_apply, ← pairEquiv_apply, bd_apply]

theorem Spread.det {kind : ℕ} {C1 : Matrix (Fin N) (Fin N) ℂ} {C : Matrix (Fin (N * N)) (Fin (N * N)) ℂ}
    (h : Spread kind C1 C) (h1 : C1.det ≠ 0) : C.det ≠ 0 := by
  rw [spread_iff.1 h, bd_det_ne]
  exact fun _ => h1

theorem Spread.inv {kind : ℕ} {C1 : Matrix (Fin N) (Fin N) ℂ} {C : Matrix (Fin (N * N)) (Fin (N * N)) ℂ}
    (h : Spread kind C1 C) (h1 : C1.det ≠ 0) : Spread kind C1⁻¹ C⁻¹ := by
  rw [spread_iff] at *
  rw [h, bd_inv _ fun _ => h1]

section
variable {kind : ℕ} {Kx Ky : Fin (N * N) → ℂ} {kx ky : Fin N → Fin N → ℂ}

/-- Maxwell's equations of a layer of one lattice, in the joint space. -/
theorem joint_maxwell (hx : ∀ i r, Kx (jointPos kind i r) = kx i r) (hy : ∀ i r, Ky (jointPos kind i r) = ky i r)
    {C1 : Matrix (Fin N) (Fin N) ℂ} {C : Matrix (Fin (N * N)) (Fin (N * N)) ℂ} (h : Spread kind C1 C)
    (hd : C1.det ≠ 0) :
    maxwellP Kx Ky C = bd (jointEquiv N kind) (fun i => maxwellP (kx i) (ky i) C1) ∧
    maxwellQ Kx Ky C = bd (jointEquiv N kind) (fun i => maxwellQ (kx i) (ky i) C1) := by
  constructor
  · rw [← extends_iff]
    intro a b i j r c
    simp only [maxwellP_comp, hx, hy, h.inv hd i j r c, jointPos_inj]
    by_cases hij : i = j
    · simp [hij]
    · cases a <;> cases b <;> simp [hij, pEntry]
  · rw [← extends_iff]
    intro a b i j r c
    simp only [maxwellQ_comp, hx, hy, h i j r c, jointPos_inj]
    by_cases hij : i = j
    · simp [hij]
    · cases a <;> cases b <;> simp [hij, qEntry']

theorem joint_modes {P Q W V : Fin N → Mat2 N} {lam : Fin N → Vec2 N}
    (h : ∀ i, IsModes (P i) (Q i) (W i) (V i) (lam i)) :
    IsModes (bd (jointEquiv N kind) P) (bd (jointEquiv N kind) Q) (bd (jointEquiv N kind) W) (bd (jointEquiv N kind) V)
      fun x => lam ((jointEquiv N kind).symm x).2 ((jointEquiv N kind).symm x).1 := by
  have hd := bd_diagonal (e := jointEquiv N kind) lam
  unfold IsModes
  rw [← hd, ← bd_mul, ← bd_mul, ← bd_mul, ← bd_mul]
  exact ⟨congrArg _ (funext fun i => (h i).1), congrArg _ (funext fun i => (h i).2)⟩

end

/-- A layer of one lattice, solved in the joint space: its S-matrix is that of modes of Maxwell's equations in the
joint space, between the gap modes of the joint space. -/
theorem ext_layer {lib : NumLib} (he : EigContract (lib.eig N)) {x : Expansion (N * N)} {base : Layer N} {kind : ℕ}
    {gs : Fin N → R2} (hN : 0 < N) (hj : Joint x base.expansion kind gs) (hf : base.form.isLayer) {kp : ℂ × ℂ}
    {wl : ℝ} {Kx Ky Kz : Fin (N * N) → ℂ} (hK : x.kVectors kp wl 1 = .ok (Kx, Ky, Kz)) {W0 V0 : Mat2 (N * N)}
    (h0 : freeSpaceEigenmodes Kx Ky = .ok (W0, V0)) {rs : Fin N → Solved N}
    (hrs : ∀ i, base.form.solve lib base.expansion base.depth (shiftKp (gs i) kp) wl = .ok (rs i)) :
    ∃ (C1 : Matrix (Fin N) (Fin N) ℂ) (C : Matrix (Fin (N * N)) (Fin (N * N)) ℂ) (L : LayerIn (Fin (N * N) ⊕ Fin (N * N))),
      Permittivity lib.jv1 base.expansion base.form C1 ∧ Spread kind C1 C ∧ C.det ≠ 0 ∧
      L.depth = base.depth ∧ L.W = bd (jointEquiv N kind) (fun i => (rs i).W) ∧
      L.V = bd (jointEquiv N kind) (fun i => (rs i).V) ∧
      L.lam = (fun y => (rs ((jointEquiv N kind).symm y).2).L ((jointEquiv N kind).symm y).1) ∧
      buildScatmat L.W L.V W0 V0 L.lam L.depth (2 * Real.pi / wl) =
        .ok (bdS (jointEquiv N kind) fun i => (rs i).S) ∧
      IsModes (maxwellP Kx Ky C) (maxwellQ Kx Ky C) L.W L.V L.lam := by
  choose kx ky kz w0 v0 hk hw hL using fun i => Form.solve_layer hf (hrs i)
  have hjk := joint_kVectors hj hK hk
  have hx : ∀ i r, Kx (jointPos kind i r) = kx i r := fun i r => (hjk i r).1
  have hy : ∀ i r, Ky (jointPos kind i r) = ky i r := fun i r => (hjk i r).2.1
  obtain ⟨w, hw', e1, e2⟩ := (joint_freeSpace hx hy).1 h0
  have hww : ∀ i, w i = (w0 i, v0 i) := fun i => by
    have := hw' i
    rw [hw i, Except.ok.injEq] at this
    exact this.symm
  have e1' : W0 = bd (jointEquiv N kind) w0 := by
    rw [show W0 = _ from e1]; congr 1; funext i; rw [hww]
  have e2' : V0 = bd (jointEquiv N kind) v0 := by
    rw [show V0 = _ from e2]; congr 1; funext i; rw [hww]
  obtain ⟨C1, hC1, hd, -, -⟩ := (hL ⟨0, hN⟩).perm
  -- the permittivity is the same at all g-vectors
  have hmodes : ∀ i, IsModes (maxwellP (kx i) (ky i) C1) (maxwellQ (kx i) (ky i) C1) (rs i).W (rs i).V (rs i).L := by
    intro i
    obtain ⟨C2, hC2, -, hm, -⟩ := (hL i).perm
    rw [permittivity_unique hC1 hC2]
    exact hm he
  have hS : Spread kind C1 (bd (pairEquiv N kind) fun _ => C1) := spread_iff.2 rfl
  refine ⟨C1, bd (pairEquiv N kind) fun _ => C1, ⟨_, _, _, base.depth⟩, hC1, hS, hS.det hd, rfl, rfl, rfl, rfl, ?_, ?_⟩
  · rw [e1', e2']
    refine (bd_buildScatmat (jointEquiv N kind) (lam := fun i => (rs i).L)).2 ⟨_, rfl, fun i => (hL i).scat⟩
  · obtain ⟨hP, hQ⟩ := joint_maxwell hx hy hS hd
    rw [hP, hQ]
    exact joint_modes hmodes

theorem forall₂_ofFn_left {α β : Type} {n : ℕ} {f : Fin n → α} {R : α → β → Prop} {l : List β}
    (h : List.Forall₂ R (List.ofFn f) l) : ∃ g : Fin n → β, l = List.ofFn g ∧ ∀ i, R (f i) (g i) := by
  have hn : l.length = n := by rw [← h.length_eq, List.length_ofFn]
  subst hn
  refine ⟨l.get, (List.ofFn_get l).symm, fun i => ?_⟩
  have := List.Forall₂.get h (i := i) (by simp) i.2
  simpa using this

/-- `solve` on an extended layer, whatever its field flags. -/
theorem ext_solve {lib : NumLib} (he : EigContract (lib.eig N)) {x : Expansion (N * N)} {base : Layer N} {kind : ℕ}
    {gs : Fin N → R2} (hN : 0 < N) (hj : Joint x base.expansion kind gs) (hf : base.form.isLayer) {kp : ℂ × ℂ}
    {wl : ℝ} {Kx Ky Kz : Fin (N * N) → ℂ} (hK : x.kVectors kp wl 1 = .ok (Kx, Ky, Kz)) {W0 V0 : Mat2 (N * N)}
    (h0 : freeSpaceEigenmodes Kx Ky = .ok (W0, V0)) {l : ExtLayer (N * N)}
    (hl : l = ⟨N, rfl, x, base, kind, List.ofFn gs, base.depth, base.fields, none, none, none, none, none, none, none⟩)
    (b : Bool) {a' : AnyLayer (N * N)}
    (hs : (AnyLayer.enable b (.ext l)).solve lib kp wl = .ok a') {S : SMat (Fin (N * N) ⊕ Fin (N * N))}
    (hS : a'.S = some S) :
    ∃ (C1 : Matrix (Fin N) (Fin N) ℂ) (C : Matrix (Fin (N * N)) (Fin (N * N)) ℂ) (L : LayerIn (Fin (N * N) ⊕ Fin (N * N))),
      Permittivity lib.jv1 base.expansion base.form C1 ∧ Spread kind C1 C ∧ C.det ≠ 0 ∧ L.depth = base.depth ∧
      buildScatmat L.W L.V W0 V0 L.lam L.depth (2 * Real.pi / wl) = .ok S ∧
      IsModes (maxwellP Kx Ky C) (maxwellQ Kx Ky C) L.W L.V L.lam ∧ a'.depth = base.depth ∧
      (b = true → a'.fields = true) ∧ (a'.fields = true → Kept Kx Ky W0 V0 a' L (.num 1)) := by
  rw [hl] at hs
  simp only [AnyLayer.enable, AnyLayer.solve, bind_eq_ok, ExtLayer.solve_eq_ok] at hs
  obtain ⟨_, ⟨rs, ws, h1, h2, hne, hk2, hlen, rfl⟩, hs⟩ := hs
  simp only [pure, Except.pure, Except.ok.injEq] at hs
  subst hs
  obtain ⟨r, rfl, hr⟩ := forall₂_ofFn_left h1
  obtain ⟨C1, C, L, p1, p2, p3, p4, pW, pV, pL, p5, p6⟩ := ext_layer he hN hj hf hK h0 hr
  simp only [AnyLayer.S, Option.some.injEq] at hS
  have hgap := (joint_gap hN hk2 hj).1 ⟨Kx, Ky, Kz, hK, h0⟩
  obtain ⟨ws', g1, -, -, -, g2, g3⟩ := extendedFreespace_eq_ok.1 hgap
  obtain rfl : ws' = ws :=
    forall₂_functional (fun _ _ _ e1 e2 => by rw [e1] at e2; exact Except.ok.inj e2) g1 h2
  refine ⟨C1, C, L, p1, p2, p3, p4, ?_, p6, rfl, ?_, fun hfl => ?_⟩
  · rw [p5, ← hS]
    congr 2
    funext i
    simp [List.getD_eq_getElem?_getD]
  · rintro rfl
    simp [AnyLayer.fields]
  · have hfl' : (base.fields || b) = true := hfl
    refine ⟨hfl, ?_, ?_, ?_, by rw [p4]; rfl, ?_, rfl⟩
    · simp only [AnyLayer.L, hfl', if_true, Option.some.injEq, getD_map_ofFn]
      rw [pL, bd_diagonal]
      funext y
      simp
    · simp only [AnyLayer.W, hfl', if_true, Option.some.injEq, getD_map_ofFn]
      exact pW.symm
    · simp only [AnyLayer.V, hfl', if_true, Option.some.injEq, getD_map_ofFn]
      exact pV.symm
    · simp only [Crystal.gapModes, hfl', if_true, Crystal.attr, ok_bind, pure, Except.pure]
      rw [← g2, ← g3]

theorem uniform_ic {lib : NumLib} {eps : ℂ} {e : Expansion N} {d : ℝ} {kp : ℂ × ℂ} {wl : ℝ} {r : Solved N}
    (h : (Form.uniform eps).solve lib e d kp wl = .ok r) : r.IC = .num (1 / eps) := by
  simp only [Form.solve, bind_eq_ok, inverseEps_eq_ok] at h
  obtain ⟨_, -, _, -, _, -, _, -, _, ⟨-, rfl⟩, h⟩ := h
  simp only [pure, Except.pure, Except.ok.injEq] at h
  rw [← h]

section
variable {lib : NumLib} {tag : ℕ} {lhs rhs : Expansion N} {se : SumExpansion N} {c : Crystal (N * N)} {wl : ℝ} {kp : ℂ × ℂ}
  {Kx Ky Kz : Fin (N * N) → ℂ} {W0 V0 : Mat2 (N * N)}

theorem spread_first {C1 : Matrix (Fin N) (Fin N) ℂ} {C : Matrix (Fin (N * N)) (Fin (N * N)) ℂ} (h : Spread 1 C1 C)
    (r c i j : Fin N) : C (pairPos r i) (pairPos c j) = if i = j then C1 r c else 0 := by
  simpa [jointPos] using h i j r c

theorem spread_second {C1 : Matrix (Fin N) (Fin N) ℂ} {C : Matrix (Fin (N * N)) (Fin (N * N)) ℂ} (h : Spread 0 C1 C)
    (r c i j : Fin N) : C (pairPos i r) (pairPos j c) = if i = j then C1 r c else 0 := by
  simpa [jointPos] using h i j r c

/-- What `solve` keeps as the inverse permittivity of a layer: that of a uniform layer, and `1` for the layers of one
of the lattices. -/
noncomputable def TwistedLayer.keptIC : TwistedLayer N → ICVal (N * N)
  | .uniform eps _ => .num (1 / eps)
  | .first _ => .num 1
  | .second _ => .num 1

/-- A layer of a twisted stack, once solved. -/
theorem twisted_layer (he : ∀ n, EigContract (lib.eig n)) (hse : lhs.add tag rhs = .ok se)
    (hne : lhs.tag ≠ rhs.tag) (hc : c.expansion = se.exp)
    (hK : se.exp.kVectors kp wl 1 = .ok (Kx, Ky, Kz)) (h0 : freeSpaceEigenmodes Kx Ky = .ok (W0, V0))
    {x : String} {l : TwistedLayer N} (hr : l.Registered se c x) {a : AnyLayer (N * N)} (ha : c.layers x = some a)
    (b : Bool) {a' : AnyLayer (N * N)} (hs : (a.enable b).solve lib kp wl = .ok a')
    {S : SMat (Fin (N * N) ⊕ Fin (N * N))} (hS : a'.S = some S) :
    ∃ (C : Matrix (Fin (N * N)) (Fin (N * N)) ℂ) (L : LayerIn (Fin (N * N) ⊕ Fin (N * N))),
      l.Permittivity lib.jv1 lhs rhs C ∧ C.det ≠ 0 ∧ L.depth = l.depth ∧
      buildScatmat L.W L.V W0 V0 L.lam L.depth (2 * Real.pi / wl) = .ok S ∧
      IsModes (maxwellP Kx Ky C) (maxwellQ Kx Ky C) L.W L.V L.lam ∧ a'.depth = l.depth ∧
      (b = true → a'.fields = true) ∧ (a'.fields = true → Kept Kx Ky W0 V0 a' L l.keptIC) := by
  have hN := add_pos hse
  obtain ⟨-, -, hsl, hsr, -⟩ := add_eq_ok hse
  cases l with
  | uniform eps d =>
    obtain ⟨l, hl, hf, rfl, hle⟩ := hr
    rw [hl, Option.some.injEq] at ha
    subst ha
    rw [AnyLayer.enable] at hs
    obtain ⟨r, hr, rfl⟩ := AnyLayer.solve_plain.1 hs
    simp only [hf, hle, hc] at hr
    obtain ⟨kx, ky, kz, w0, v0, hk, hw, hL⟩ := Form.solve_layer (by simp [Form.isLayer]) hr
    rw [hK, Except.ok.injEq, Prod.mk.injEq, Prod.mk.injEq] at hk
    obtain ⟨rfl, rfl, rfl⟩ := hk
    rw [h0, Except.ok.injEq, Prod.mk.injEq] at hw
    obtain ⟨rfl, rfl⟩ := hw
    obtain ⟨C, hC, hd, hm, -⟩ := hL.perm
    simp only [AnyLayer.S, Layer.store, Option.some.injEq] at hS
    refine ⟨C, ⟨r.W, r.V, r.L, l.depth⟩, hC, hd, rfl, hS ▸ hL.scat, hm (he _), rfl, ?_, fun hfl => ?_⟩
    · rintro rfl
      simp [AnyLayer.fields, Layer.store]
    · have := kept_plain (l := { l with fields := l.fields || b }) (r := r) hfl h0
      rwa [uniform_ic hr] at this
  | first l =>
    obtain ⟨hle, hf, e, hmk, hx⟩ := hr
    rw [hx, Option.some.injEq] at ha
    subst ha
    rw [ExtLayer.make, hle, if_pos rfl, Except.ok.injEq] at hmk
    obtain ⟨C1, C, L, p1, p2, p3, p4, p5, p6, p7, p8, p9⟩ := ext_solve (he _) hN (base := l) (kind := 1) (gs := se.rhs.g)
      (by rw [hle, hsl, hsr]; exact joint_lhs hse) hf hK h0 (by rw [← hmk]) b hs hS
    rw [hle, hsl] at p1
    exact ⟨C, L, ⟨C1, p1, spread_first p2⟩, p3, p4, p5, p6, p7, p8, p9⟩
  | second l =>
    obtain ⟨hle, hf, e, hmk, hx⟩ := hr
    rw [hx, Option.some.injEq] at ha
    subst ha
    rw [ExtLayer.make, hle, if_neg (by rw [hsl, hsr]; exact hne), if_pos rfl, Except.ok.injEq] at hmk
    obtain ⟨C1, C, L, p1, p2, p3, p4, p5, p6, p7, p8, p9⟩ := ext_solve (he _) hN (base := l) (kind := 0) (gs := se.lhs.g)
      (by rw [hle, hsl, hsr]; exact joint_rhs hse) hf hK h0 (by rw [← hmk]) b hs hS
    rw [hle, hsr] at p1
    exact ⟨C, L, ⟨C1, p1, spread_second p2⟩, p3, p4, p5, p6, p7, p8, p9⟩

/-- All layers of a twisted stack, once solved. -/
theorem twisted_chain (he : ∀ n, EigContract (lib.eig n)) (hse : lhs.add tag rhs = .ok se)
    (hne : lhs.tag ≠ rhs.tag) (hc : c.expansion = se.exp)
    (hK : se.exp.kVectors kp wl 1 = .ok (Kx, Ky, Kz)) (h0 : freeSpaceEigenmodes Kx Ky = .ok (W0, V0))
    (req : String → Bool) {stack : List String} {Ls : List (TwistedLayer N)} {As As' : List (AnyLayer (N * N))}
    {Ss : List (SMat (Fin (N * N) ⊕ Fin (N * N)))}
    (hr : List.Forall₂ (TwistedLayer.Registered se c) stack Ls)
    (ha : List.Forall₂ (fun x a => c.layers x = some a) stack As)
    (hs : List.Forall₂ (fun a a' => AnyLayer.solve lib kp wl a = .ok a')
      (List.zipWith (fun x a => AnyLayer.enable (req x) a) stack As) As')
    (hS : List.Forall₂ (fun (a' : AnyLayer (N * N)) S => a'.S = some S) As' Ss) :
    ∃ (In : List (LayerIn (Fin (N * N) ⊕ Fin (N * N)))) (Ms : List (Mat2 (N * N) × Mat2 (N * N) × ℝ)),
      List.Forall₂ (fun (L : LayerIn (Fin (N * N) ⊕ Fin (N * N))) S =>
        buildScatmat L.W L.V W0 V0 L.lam L.depth (2 * Real.pi / wl) = .ok S) In Ss ∧
      List.Forall₂ (fun l X => ∃ C, TwistedLayer.Permittivity lib.jv1 lhs rhs l C ∧ C.det ≠ 0 ∧
        X = (maxwellP Kx Ky C, maxwellQ Kx Ky C, l.depth * (2 * Real.pi / wl))) Ls Ms ∧
      (∀ F G, FieldChain (In.map (LayerIn.toMode (2 * Real.pi / wl))) F G ↔ MaxwellChain Ms F G) ∧
      List.Forall₂ (fun (M : Mat2 (N * N) × Mat2 (N * N) × ℝ) L => IsModes M.1 M.2.1 L.W L.V L.lam) Ms In ∧
      In.map LayerIn.depth = Ls.map TwistedLayer.depth ∧ As'.map AnyLayer.depth = Ls.map TwistedLayer.depth ∧
      List.Forall₂ (fun x (a' : AnyLayer (N * N)) => req x = true → a'.fields = true) stack As' ∧
      List.Forall₂ (fun (a' : AnyLayer (N * N)) q => a'.fields = true → Kept Kx Ky W0 V0 a' q.1 q.2) As'
        (In.zip (Ls.map TwistedLayer.keptIC)) := by
  induction hr generalizing As As' Ss with
  | nil =>
    cases ha
    cases hs
    cases hS
    exact ⟨[], [], .nil, .nil, fun _ _ => Iff.rfl, .nil, rfl, rfl, .nil, .nil⟩
  | cons hr _ ih =>
    cases ha with
    | cons ha hat =>
      simp only [List.zipWith_cons_cons] at hs
      cases hs with
      | cons hs hst =>
        cases hS with
        | cons hS hSt =>
          obtain ⟨In, Ms, i1, i2, i3, i4, i5, i6, i7, i8⟩ := ih hat hst hSt
          obtain ⟨C, L, p1, p2, p3, p4, p5, p6, p7, p8⟩ := twisted_layer he hse hne hc hK h0 hr ha _ hs hS
          refine ⟨L :: In, _ :: Ms, .cons p4 i1, .cons ⟨C, p1, p2, rfl⟩ i2, fun F G => ?_, .cons p5 i4,
            by simp [p3, i5], by simp [p6, i6], .cons p7 i7, .cons p8 i8⟩
          obtain ⟨hW, hV⟩ := buildScatmat_det p4
          simp only [List.map_cons, FieldChain, MaxwellChain, i3, LayerIn.toMode, p3]
          simp only [modal_iff_maxwell hW hV p5.1 p5.2]

theorem TwistedLayer.registered_some {x : String} {l : TwistedLayer N} (h : l.Registered se c x) :
    ∃ a, c.layers x = some a := by
  cases l with
  | uniform => obtain ⟨l, hl, -⟩ := h; exact ⟨_, hl⟩
  | first => obtain ⟨-, -, a, -, ha⟩ := h; exact ⟨_, ha⟩
  | second => obtain ⟨-, -, a, -, ha⟩ := h; exact ⟨_, ha⟩

end

/-- A twisted stack after `set_device` and `set_source`. -/
theorem twisted_device {se : SumExpansion N} {c c1 c2 : Crystal (N * N)} {stack : List String} {m : Bool ⊕ List Bool}
    {Ls : List (TwistedLayer N)} {er et : ℂ} {wl : ℝ} {te tm : ℂ} {theta phi : ℝ} {kpo : Option (ℂ × ℂ)}
    (hc : TwistedDevice se c stack m Ls er et) (h1 : c.setDevice stack m = .ok c1)
    (h2 : c1.setSource wl te tm theta phi kpo = .ok c2) :
    ∃ lr lt As k, List.Forall₂ (fun x a => c.layers x = some a) stack As ∧
      AnyDevice c2 stack (Crystal.maskList stack m) lr
        (List.zipWith (fun x a => a.enable (Crystal.requested x (stack.zip (Crystal.maskList stack m)))) stack As) lt er et ∧
      c2.expansion = se.exp ∧ c2.epsi = er ∧ c2.epse = et ∧
      c2.source = some ⟨te, tm, theta, phi, wl, k,
        star (csqrt (((2 * Real.pi / wl : ℝ) : ℂ) ^ 2 * er - k.1 ^ 2 - k.2 ^ 2))⟩ := by
  have hm : (Crystal.maskList stack m).length = stack.length := by
    cases m with
    | inl b => simp [Crystal.maskList]
    | inr l => exact hc.mask l rfl
  have hAs : ∃ As : List (AnyLayer (N * N)), List.Forall₂ (fun x a => c.layers x = some a) stack As := by
    have := hc.layers
    clear hm hc h1
    induction this with
    | nil => exact ⟨[], .nil⟩
    | cons h _ ih =>
      obtain ⟨As, ih⟩ := ih
      obtain ⟨a, ha⟩ := TwistedLayer.registered_some h
      exact ⟨a :: As, .cons ha ih⟩
  obtain ⟨As, hAs⟩ := hAs
  obtain ⟨c1', hset, hd, hexp, -, hi, hie⟩ := Crystal.setDevice_any hc.void hc.noRef hc.noTrans hAs hm
  rw [h1, Except.ok.injEq] at hset
  subst hset
  obtain ⟨hwl, k, hk, rfl⟩ := Crystal.setSource_eq_ok.1 h2
  rw [hc.epsi, hc.epse] at hd
  obtain ⟨a1, a2, a3, a4, a5, a6, a7, a8, a9, a10, a11, a12, a13, a14, a15⟩ := hd
  refine ⟨_, _, As, k, hAs, ⟨a1, a2, a3, a4, a5, a6, a7, a8, a9, a10, a11, a12, a13, a14, a15⟩, hexp.trans hc.space,
    hi.trans hc.epsi, hie.trans hc.epse, ?_⟩
  rw [hi, hc.epsi]

section
variable {jv1 : ℝ → ℝ} {lhs rhs : Expansion N} {kx ky : Fin (N * N) → ℝ} {k0 : ℝ} {Ls : List (TwistedLayer N)}
  {Ms : List (Mat2 (N * N) × Mat2 (N * N) × ℝ)}

theorem twisted_flux_eq (h : TwistedEquations jv1 lhs rhs kx ky k0 Ls Ms)
    (ha : ∀ l ∈ Ls, ∀ C, l.Permittivity jv1 lhs rhs C → LosslessMat C)
    {F G : Tang (Fin (N * N) ⊕ Fin (N * N))} (hc : MaxwellChain Ms F G) : fluxZ G = fluxZ F := by
  unfold TwistedEquations at h
  induction h generalizing F with
  | nil => rw [show F = G from hc]
  | @cons l M _ _ h1 _ ih =>
    obtain ⟨C, hC, hd, rfl⟩ := h1
    obtain ⟨K, hK, hc⟩ := hc
    rw [ih (fun l hl => ha l (by simp [hl])) hc, maxwellTransfer_iff_flow.1 hK]
    exact power_flow_const hd (ha l (by simp) C hC) F _

theorem twisted_flux_le (h : TwistedEquations jv1 lhs rhs kx ky k0 Ls Ms)
    (ha : ∀ l ∈ Ls, 0 ≤ l.depth * k0 ∧ ∀ C, l.Permittivity jv1 lhs rhs C → AbsorbingMat C)
    {F G : Tang (Fin (N * N) ⊕ Fin (N * N))} (hc : MaxwellChain Ms F G) : fluxZ G ≤ fluxZ F := by
  unfold TwistedEquations at h
  induction h generalizing F with
  | nil => exact le_of_eq (by rw [show F = G from hc])
  | @cons l M _ _ h1 _ ih =>
    obtain ⟨C, hC, hd, rfl⟩ := h1
    obtain ⟨K, hK, hc⟩ := hc
    obtain ⟨h0, habs⟩ := ha l (by simp)
    refine (ih (fun l hl => ha l (by simp [hl])) hc).trans ?_
    rw [maxwellTransfer_iff_flow.1 hK]
    have := power_flow_antitone (kx := kx) (ky := ky) hd (habs C hC) F h0
    simpa [flow_zero] using this

end

theorem bd_quad {N : ℕ} (kind : ℕ) (C : Matrix (Fin N) (Fin N) ℂ) (u : Fin (N * N) → ℂ) :
    star u ⬝ᵥ (bd (pairEquiv N kind) fun _ => C) *ᵥ u =
      ∑ i, star (fun r => u (pairEquiv N kind (r, i))) ⬝ᵥ C *ᵥ fun r => u (pairEquiv N kind (r, i)) := by
  simp only [dotProduct, mulVec, Pi.star_apply]
  rw [← Equiv.sum_comp (pairEquiv N kind), Fintype.sum_prod_type, Finset.sum_comm]
  refine Finset.sum_congr rfl fun i _ => Finset.sum_congr rfl fun r _ => ?_
  rw [← Equiv.sum_comp (pairEquiv N kind), Fintype.sum_prod_type]
  congr 1
  refine Finset.sum_congr rfl fun c _ => ?_
  simp [bd_apply]

theorem spread_lossless {N kind : ℕ} {C1 : Matrix (Fin N) (Fin N) ℂ} {C : Matrix (Fin (N * N)) (Fin (N * N)) ℂ}
    (h : Spread kind C1 C) (h1 : LosslessMat C1) : LosslessMat C := by
  intro u
  rw [spread_iff.1 h, bd_quad, Complex.im_sum]
  exact Finset.sum_eq_zero fun i _ => h1 _

theorem spread_absorbing {N kind : ℕ} {C1 : Matrix (Fin N) (Fin N) ℂ} {C : Matrix (Fin (N * N)) (Fin (N * N)) ℂ}
    (h : Spread kind C1 C) (h1 : AbsorbingMat C1) : AbsorbingMat C := by
  intro u
  rw [spread_iff.1 h, bd_quad, Complex.im_sum]
  exact Finset.sum_nonpos fun i _ => h1 _

theorem first_spread {M : ℕ} {C1 : Matrix (Fin M) (Fin M) ℂ} {C : Matrix (Fin (M * M)) (Fin (M * M)) ℂ}
    (h : ∀ r c i j, C (pairPos r i) (pairPos c j) = if i = j then C1 r c else 0) : Spread 1 C1 C := by
  intro i j r c
  simpa [jointPos] using h r c i j

theorem second_spread {M : ℕ} {C1 : Matrix (Fin M) (Fin M) ℂ} {C : Matrix (Fin (M * M)) (Fin (M * M)) ℂ}
    (h : ∀ r c i j, C (pairPos i r) (pairPos j c) = if i = j then C1 r c else 0) : Spread 0 C1 C := by
  intro i j r c
  simpa [jointPos] using h r c i j

end Khepri
