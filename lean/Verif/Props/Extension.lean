import Verif.Lemmas.ExtensionUniform
import Verif.Lemmas.ExampleTwisted

/-!
# Properties C26–C28: layers of one lattice in the space of two lattices

`jointPos kind i r` (`Spec/Extension.lean`) numbers order `r` of the base lattice at the `i`-th g-vector
of the other lattice; `Extends kind A R` says that `R` acts as `A i` on the orders that share g-vector
`i` and couples nothing else.
-/

namespace Khepri

open Matrix

variable {M : ℕ}

/-! ### C26 -/

/-- **C26.** `_joint_subspace` (the `as_strided` views) returns, for every number of orders and in both
modes, the matrix whose entry `(a, j), (b, j')` is the entry `(a, r), (b, c)` of the submatrix of the
g-vector shared by `j` and `j'`, and `0` when they do not share one (`0` too for g-vectors beyond the
given submatrices).  It fails exactly for no submatrix, more submatrices than orders, or an unknown
mode. -/
theorem C26_joint_subspace (subs : List (Mat2 M)) (kind : ℕ) (R : Mat2 (M * M)) :
    jointSubspace (M * M) subs kind = .ok R ↔ subs ≠ [] ∧ kind < 2 ∧ subs.length ≤ M ∧
      Extends kind (fun i => subs.getD i 0) R :=
  jointSubspace_eq_ok

/-- The matrices of a solved layer extend those of the base layer solved at the shifted wave vectors
`kp + gs i`. -/
def ExtendsSolved (lib : NumLib) (base : Layer M) (kind : ℕ) (gs : Fin M → R2) (kp : ℂ × ℂ) (wl : ℝ)
    (x : ExtLayer (M * M)) : Prop :=
  ∃ rs : Fin M → Solved M,
    (∀ i, base.form.solve lib base.expansion base.depth ((gs i).1 + kp.1, (gs i).2 + kp.2) wl = .ok (rs i)) ∧
    (∃ S, x.S = some S ∧ Extends kind (fun i => (rs i).S.s11) S.s11 ∧ Extends kind (fun i => (rs i).S.s12) S.s12 ∧
      Extends kind (fun i => (rs i).S.s21) S.s21 ∧ Extends kind (fun i => (rs i).S.s22) S.s22) ∧
    (base.fields = true →
      (∃ W, x.W = some W ∧ Extends kind (fun i => (rs i).W) W) ∧
      (∃ V, x.V = some V ∧ Extends kind (fun i => (rs i).V) V) ∧
      (∃ L, x.L = some L ∧ ∀ a i r, L (comp a (jointPos kind i r)) = (rs i).L (comp a r)))

theorem extendsSolved_of_solve {lib : NumLib} {x : Expansion (M * M)} {base : Layer M} {kind : ℕ}
    {gs : Fin M → R2} {kp : ℂ × ℂ} {wl : ℝ} (hM : 0 < M) (hk : kind < 2) :
    (∀ l', (⟨M, rfl, x, base, kind, List.ofFn gs, base.depth, base.fields, none, none, none, none, none, none,
        none⟩ : ExtLayer (M * M)).solve lib kp wl = .ok l' → ExtendsSolved lib base kind gs kp wl l') ∧
    ((∀ i, ∃ r, base.form.solve lib base.expansion base.depth (shiftKp (gs i) kp) wl = .ok r) →
      ∃ l', (⟨M, rfl, x, base, kind, List.ofFn gs, base.depth, base.fields, none, none, none, none, none,
        none, none⟩ : ExtLayer (M * M)).solve lib kp wl = .ok l') := by
  constructor
  · intro l' h
    rw [ExtLayer.solve_eq_ok] at h
    obtain ⟨rs, ws, hrs, -, -, -, -, rfl⟩ := h
    obtain ⟨rs', rfl, hrs'⟩ := forall₂_ofFn.1 hrs
    refine ⟨rs', hrs', ⟨_, rfl, ?_⟩, ?_⟩
    · simp only [extends_iff, bdS, getD_map_ofFn, and_self]
    · intro hf
      simp only [hf, if_true, getD_map_ofFn]
      refine ⟨⟨_, rfl, extends_iff.2 rfl⟩, ⟨_, rfl, extends_iff.2 rfl⟩, _, rfl, fun a i r => ?_⟩
      rw [← jointEquiv_comp, bd_apply, if_pos rfl, diagonal_apply_eq]
  · intro h
    choose rs hrs using h
    choose ws hws using fun i => Form.solve_gap (hrs i)
    exact ⟨_, ExtLayer.solve_eq_ok.2 ⟨List.ofFn rs, List.ofFn ws, forall₂_ofFn.2 ⟨rs, rfl, hrs⟩,
      forall₂_ofFn.2 ⟨ws, rfl, hws⟩, ofFn_ne_nil hM _, hk, by simp, rfl⟩⟩

/-- **C26.** An extended layer whose base lives on the left lattice of the sum: its matrices are those
of the base layer at the wave vectors shifted by the right lattice's g-vectors, placed on the orders
that share the g-vector; and each such order has, in the joint expansion, the very in-plane wave vector
at which the base layer was solved.  It solves exactly when the base does at all those wave vectors. -/
theorem C26_extend_lhs {tag : ℕ} {lhs rhs : Expansion M} {se : SumExpansion M} (hse : lhs.add tag rhs = .ok se)
    {base : Layer M} (hb : base.expansion = lhs) {x : ExtLayer (M * M)} (hx : ExtLayer.make se base = .ok x)
    (lib : NumLib) (kp : ℂ × ℂ) (wl : ℝ) :
    (∀ x', x.solve lib kp wl = .ok x' → ExtendsSolved lib base 1 rhs.g kp wl x') ∧
    ((∃ x', x.solve lib kp wl = .ok x') ↔
      ∀ i, ∃ r, base.form.solve lib lhs base.depth ((rhs.g i).1 + kp.1, (rhs.g i).2 + kp.2) wl = .ok r) ∧
    ∀ (i r : Fin M) (K : (Fin (M * M) → ℂ) × (Fin (M * M) → ℂ) × (Fin (M * M) → ℂ))
      (k : (Fin M → ℂ) × (Fin M → ℂ) × (Fin M → ℂ)), se.exp.kVectors kp wl 1 = .ok K →
      lhs.kVectors ((rhs.g i).1 + kp.1, (rhs.g i).2 + kp.2) wl 1 = .ok k →
      K.1 (jointPos 1 i r) = k.1 r ∧ K.2.1 (jointPos 1 i r) = k.2.1 r ∧ K.2.2 (jointPos 1 i r) = k.2.2 r := by
  obtain ⟨-, -, hl, hr, -⟩ := add_eq_ok hse
  subst hb
  have hM := add_pos hse
  unfold ExtLayer.make at hx
  rw [if_pos (by rw [hl]), hr] at hx
  cases hx
  have key := extendsSolved_of_solve (lib := lib) (x := se.exp) (base := base) (gs := rhs.g) (kp := kp) (wl := wl)
    hM one_lt_two
  refine ⟨key.1, ⟨?_, key.2⟩, ?_⟩
  · rintro ⟨x', hx'⟩ i
    obtain ⟨rs, hrs, -⟩ := key.1 x' hx'
    exact ⟨rs i, hrs i⟩
  · intro i r K k hK hk
    obtain ⟨hwl, -⟩ := kVectors_eq_ok.1 hK
    have hk' : ∀ j, ∃ q, base.expansion.kVectors (shiftKp (rhs.g j) kp) wl 1 = .ok q := fun j =>
      ⟨(_, _, _), kVectors_eq_ok.2 ⟨hwl, rfl, rfl, rfl⟩⟩
    choose q hq using hk'
    have e : q i = k := by
      have := (hq i).symm.trans hk
      exact Except.ok.inj this
    rw [← e]
    exact joint_kVectors (joint_lhs hse) hK hq i r

/-- **C26**, base on the right lattice. -/
theorem C26_extend_rhs {tag : ℕ} {lhs rhs : Expansion M} {se : SumExpansion M} (hse : lhs.add tag rhs = .ok se)
    {base : Layer M} (hb : base.expansion = rhs) (hne : lhs.tag ≠ rhs.tag) {x : ExtLayer (M * M)}
    (hx : ExtLayer.make se base = .ok x) (lib : NumLib) (kp : ℂ × ℂ) (wl : ℝ) :
    (∀ x', x.solve lib kp wl = .ok x' → ExtendsSolved lib base 0 lhs.g kp wl x') ∧
    ((∃ x', x.solve lib kp wl = .ok x') ↔
      ∀ i, ∃ r, base.form.solve lib rhs base.depth ((lhs.g i).1 + kp.1, (lhs.g i).2 + kp.2) wl = .ok r) ∧
    ∀ (i r : Fin M) (K : (Fin (M * M) → ℂ) × (Fin (M * M) → ℂ) × (Fin (M * M) → ℂ))
      (k : (Fin M → ℂ) × (Fin M → ℂ) × (Fin M → ℂ)), se.exp.kVectors kp wl 1 = .ok K →
      rhs.kVectors ((lhs.g i).1 + kp.1, (lhs.g i).2 + kp.2) wl 1 = .ok k →
      K.1 (jointPos 0 i r) = k.1 r ∧ K.2.1 (jointPos 0 i r) = k.2.1 r ∧ K.2.2 (jointPos 0 i r) = k.2.2 r := by
  obtain ⟨-, -, hl, hr, -⟩ := add_eq_ok hse
  subst hb
  have hM := add_pos hse
  unfold ExtLayer.make at hx
  rw [if_neg (by rw [hl]; exact hne), if_pos (by rw [hr]), hl] at hx
  cases hx
  have key := extendsSolved_of_solve (lib := lib) (x := se.exp) (base := base) (gs := lhs.g) (kp := kp) (wl := wl)
    hM zero_lt_two
  refine ⟨key.1, ⟨?_, key.2⟩, ?_⟩
  · rintro ⟨x', hx'⟩ i
    obtain ⟨rs, hrs, -⟩ := key.1 x' hx'
    exact ⟨rs i, hrs i⟩
  · intro i r K k hK hk
    obtain ⟨hwl, -⟩ := kVectors_eq_ok.1 hK
    have hk' : ∀ j, ∃ q, base.expansion.kVectors (shiftKp (lhs.g j) kp) wl 1 = .ok q := fun j =>
      ⟨(_, _, _), kVectors_eq_ok.2 ⟨hwl, rfl, rfl, rfl⟩⟩
    choose q hq using hk'
    have e : q i = k := by
      have := (hq i).symm.trans hk
      exact Except.ok.inj this
    rw [← e]
    exact joint_kVectors (joint_rhs hse) hK hq i r

/-- **C26.** Every order of the joint expansion is exactly one pair (g-vector, base order), in both
modes. -/
theorem C26_numbering (kind : ℕ) (p : Fin (M * M)) : ∃! ir : Fin M × Fin M, p = jointPos kind ir.1 ir.2 := by
  obtain ⟨i, r, rfl⟩ := exists_jointPos kind p
  refine ⟨(i, r), rfl, ?_⟩
  rintro ⟨j, c⟩ h
  obtain ⟨rfl, rfl⟩ := jointPos_inj.1 h
  rfl

/-- **C26.** A base layer on neither lattice is rejected. -/
theorem C26_foreign {se : SumExpansion M} {base : Layer M} (h1 : se.lhs.tag ≠ base.expansion.tag)
    (h2 : se.rhs.tag ≠ base.expansion.tag) : ExtLayer.make se base = .error .notImplemented := by
  rw [ExtLayer.make, if_neg h1, if_neg h2]

/-! ### C27 -/

/-- **C27.** Extending and cascading commute: the cascade of two extended S-matrices exists exactly
when all the cascades of the corresponding parts exist, and is then their extension. -/
theorem C27_cascade {kind : ℕ} {As Bs : List (SMat (Fin M ⊕ Fin M))} (hlen : As.length = Bs.length)
    {RA RB : SMat (Fin (M * M) ⊕ Fin (M * M))} (hA : jointSMat (M * M) As kind = .ok RA)
    (hB : jointSMat (M * M) Bs kind = .ok RB) (R : SMat (Fin (M * M) ⊕ Fin (M * M))) :
    redheffer RA RB = .ok R ↔
      ∃ Cs, List.Forall₂ (fun p C => redheffer p.1 p.2 = .ok C) (As.zip Bs) Cs ∧
        jointSMat (M * M) Cs kind = .ok R := by
  rw [jointSMat_eq_ok] at hA hB
  obtain ⟨h1, h2, h3, rfl⟩ := hA
  obtain ⟨g1, -, g3, rfl⟩ := hB
  rw [bd_redheffer]
  have hz : redheffer (⟨0, 0, 0, 0⟩ : SMat (Fin M ⊕ Fin M)) ⟨0, 0, 0, 0⟩ = .ok ⟨0, 0, 0, 0⟩ := by
    rw [redheffer_eq_ok]; simp [redhefferVal]
  constructor
  · rintro ⟨C, rfl, hC⟩
    refine ⟨(List.ofFn C).take As.length, ?_, ?_⟩
    · rw [List.forall₂_iff_get]
      refine ⟨by simp [← hlen, h3], fun i hi1 hi2 => ?_⟩
      simp only [List.length_zip, ← hlen, min_self] at hi1
      have := hC ⟨i, by omega⟩
      simp only [List.getD_eq_getElem?_getD, List.getElem?_eq_getElem hi1,
        List.getElem?_eq_getElem (hlen ▸ hi1), Option.getD_some] at this
      simpa using this
    · rw [jointSMat_eq_ok]
      have hpos : 0 < As.length := List.length_pos_iff.2 h1
      refine ⟨?_, h2, by simp [h3], ?_⟩
      · apply List.ne_nil_of_length_pos
        simp; omega
      · congr 1; funext i
        by_cases hi : (i : ℕ) < As.length
        · simp [List.getD_eq_getElem?_getD, hi]
        · have := hC i
          simp only [List.getD_eq_getElem?_getD, List.getElem?_eq_none (not_lt.1 hi),
            List.getElem?_eq_none (not_lt.1 (hlen ▸ hi)), Option.getD_none, hz, Except.ok.injEq] at this
          simp [List.getD_eq_getElem?_getD, hi, ← this]
  · rintro ⟨Cs, hCs, hR⟩
    obtain ⟨-, -, -, rfl⟩ := jointSMat_eq_ok.1 hR
    refine ⟨_, rfl, fun i => ?_⟩
    have hl : Cs.length = As.length := by rw [← hCs.length_eq]; simp [hlen]
    by_cases hi : (i : ℕ) < As.length
    · have := (List.forall₂_iff_get.1 hCs).2 i (by simp [← hlen, hi]) (by omega)
      simp only [List.getD_eq_getElem?_getD, List.getElem?_eq_getElem hi,
        List.getElem?_eq_getElem (hlen ▸ hi), List.getElem?_eq_getElem (hl ▸ hi), Option.getD_some]
      simpa using this
    · simp only [List.getD_eq_getElem?_getD, List.getElem?_eq_none (not_lt.1 hi),
        List.getElem?_eq_none (not_lt.1 (hlen ▸ hi)), List.getElem?_eq_none (not_lt.1 (hl ▸ hi)),
        Option.getD_none, hz]

/-- **C27.** Extending the identity gives the identity. -/
theorem C27_identity (hM : 0 < M) {kind : ℕ} (hk : kind < 2) :
    jointSMat (M * M) (List.replicate M (scatteringIdentity (Fin M ⊕ Fin M))) kind =
      .ok (scatteringIdentity (Fin (M * M) ⊕ Fin (M * M))) := by
  rw [jointSMat_eq_ok]
  refine ⟨?_, hk, by simp, ?_⟩
  · apply List.ne_nil_of_length_pos; simpa
  · rw [← bdS_identity (jointEquiv M kind)]
    congr 1; funext i
    simp [List.getD_eq_getElem?_getD]

/-- **C27.** Stacks of any length: `stack_layers` on the extended layers succeeds exactly when it
does for every g-vector of the other lattice, and the total S-matrix is the extension of the total
S-matrices. -/
theorem C27_stack (hM : 0 < M) {kind : ℕ} (hk : kind < 2) (Ls : List (Fin M → SMat (Fin M ⊕ Fin M)))
    (Rs : List (SMat (Fin (M * M) ⊕ Fin (M * M))))
    (hR : List.Forall₂ (fun L R => jointSMat (M * M) (List.ofFn L) kind = .ok R) Ls Rs)
    (mask : List Bool) (hmask : mask.length = Ls.length) (T : SMat (Fin (M * M) ⊕ Fin (M * M))) :
    (∃ st, stackLayers Rs mask = .ok st ∧ st.Stot = T) ↔
      ∃ t : Fin M → SMat (Fin M ⊕ Fin M),
        (∀ i, ∃ st, stackLayers (Ls.map fun L => L i) mask = .ok st ∧ st.Stot = t i) ∧
        jointSMat (M * M) (List.ofFn t) kind = .ok T := by
  have hRs : Rs = Ls.map (bdS (jointEquiv M kind)) := by
    clear hmask
    induction hR with
    | nil => rfl
    | cons h _ ih =>
      obtain ⟨-, -, -, h⟩ := jointSMat_eq_ok.1 h
      rw [ih, h, List.map_cons]
      congr 2; funext i
      simp [List.getD_eq_getElem?_getD]
  have hjoin : ∀ t : Fin M → SMat (Fin M ⊕ Fin M), jointSMat (M * M) (List.ofFn t) kind = .ok T ↔
      T = bdS (jointEquiv M kind) t := by
    intro t
    rw [jointSMat_eq_ok]
    have : (fun i : Fin M => (List.ofFn t).getD i ⟨0, 0, 0, 0⟩) = t := by
      funext i; simp [List.getD_eq_getElem?_getD]
    rw [this]
    exact ⟨fun h => h.2.2.2, fun h => ⟨ofFn_ne_nil hM _, hk, by simp, h⟩⟩
  rw [stackLayers_exists (by rw [hmask, hRs, List.length_map])]
  have hst : ∀ i t, (∃ st, stackLayers (Ls.map fun L => L i) mask = .ok st ∧ st.Stot = t) ↔ _ :=
    fun i t => stackLayers_exists (by rw [hmask, List.length_map]) t
  simp only [hst, hjoin]
  rw [hRs, ← bdS_identity (jointEquiv M kind), bd_leftFold, ← List.map_reverse, bd_revFold]
  simp only [← List.map_reverse]
  constructor
  · rintro ⟨⟨C, rfl, hC⟩, D, hD, hD'⟩
    cases bdS_injective _ hD
    exact ⟨C, fun i => ⟨hC i, hD' i⟩, rfl⟩
  · rintro ⟨t, h, rfl⟩
    exact ⟨⟨t, rfl, fun i => (h i).1⟩, t, rfl, fun i => (h i).2⟩

/-! ### C28 -/

/-- **C28.** `extended_freespace`, from either lattice, returns what `free_space_eigenmodes` returns on
the joint expansion's own wave vectors (and fails exactly when it fails). -/
theorem C28_freespace {tag : ℕ} {lhs rhs : Expansion M} {se : SumExpansion M} (hse : lhs.add tag rhs = .ok se)
    (kp : ℂ × ℂ) (wl : ℝ) (R : Mat2 (M * M) × Mat2 (M * M)) :
    (extendedFreespace (M * M) lhs (List.ofFn rhs.g) wl 1 kp = .ok R ↔
      ∃ Kx Ky Kz, se.exp.kVectors kp wl 1 = .ok (Kx, Ky, Kz) ∧ freeSpaceEigenmodes Kx Ky = .ok R) ∧
    (extendedFreespace (M * M) rhs (List.ofFn lhs.g) wl 0 kp = .ok R ↔
      ∃ Kx Ky Kz, se.exp.kVectors kp wl 1 = .ok (Kx, Ky, Kz) ∧ freeSpaceEigenmodes Kx Ky = .ok R) :=
  ⟨(joint_gap (add_pos hse) one_lt_two (joint_lhs hse)).symm,
    (joint_gap (add_pos hse) zero_lt_two (joint_rhs hse)).symm⟩

theorem uniform_extended {x : Expansion (M * M)} {e : Expansion M} {kind : ℕ} {gs : Fin M → R2} (hM : 0 < M)
    (hk : kind < 2) (hj : Joint x e kind gs) (lib : NumLib) (kp : ℂ × ℂ) (wl : ℝ) (eps : ℂ) (d : ℝ) (f : Bool)
    (S : SMat (Fin (M * M) ⊕ Fin (M * M))) (W V : Option (Mat2 (M * M))) (L : Option (Vec2 (M * M))) :
    (∃ l', (⟨M, rfl, x, { Layer.uniform e eps d with fields := f }, kind, List.ofFn gs, d, f, none, none, none,
        none, none, none, none⟩ : ExtLayer (M * M)).solve lib kp wl = .ok l' ∧ l'.S = some S ∧ l'.W = W ∧
        l'.V = V ∧ l'.L = L) ↔
      ∃ l', ({ Layer.uniform x eps d with fields := f } : Layer (M * M)).solve lib kp wl = .ok l' ∧
        l'.S = some S ∧ l'.W = W ∧ l'.V = V ∧ l'.L = L := by
  simp only [ExtLayer.solve_eq_ok, Layer.solve_eq_ok, forall₂_ofFn]
  have hL : ∀ rs : Fin M → Solved M, (fun p => bd (jointEquiv M kind) (fun i => diagonal (rs i).L) p p) =
      fun y => (rs ((jointEquiv M kind).symm y).2).L ((jointEquiv M kind).symm y).1 := by
    intro rs; funext p; rw [bd_diagonal, diagonal_apply_eq]
  constructor
  · rintro ⟨l', ⟨_, _, ⟨rs, rfl, hrs⟩, -, -, -, -, rfl⟩, h1, h2, h3, h4⟩
    have hR := (joint_uniform_solve hM hj (lib := lib) (kp := kp) (wl := wl) (eps := eps) (d := d)
      (R := ⟨bd (jointEquiv M kind) fun i => (rs i).W, bd (jointEquiv M kind) fun i => (rs i).V,
        fun y => (rs ((jointEquiv M kind).symm y).2).L ((jointEquiv M kind).symm y).1,
        bdS (jointEquiv M kind) fun i => (rs i).S, .num (1 / eps)⟩)).2 ⟨rs, hrs, rfl, rfl, rfl, rfl, rfl⟩
    simp only [getD_map_ofFn, Option.some.injEq, hL] at h1 h2 h3 h4
    refine ⟨_, ⟨_, hR, rfl⟩, ?_, ?_, ?_, ?_⟩
    · simp only [Layer.store, h1]
    · simp only [Layer.store, h2]
    · simp only [Layer.store, h3]
    · simp only [Layer.store, h4]
  · rintro ⟨l', ⟨R, hR, rfl⟩, h1, h2, h3, h4⟩
    obtain ⟨rs, hrs, e1, e2, e3, e4, -⟩ := (joint_uniform_solve hM hj).1 hR
    choose ws hws using fun i => Form.solve_gap (hrs i)
    refine ⟨_, ⟨_, _, ⟨rs, rfl, hrs⟩, ⟨ws, rfl, hws⟩, ofFn_ne_nil hM _, hk, by simp, rfl⟩, ?_⟩
    simp only [getD_map_ofFn, hL, Option.some.injEq]
    simp only [Layer.store, Option.some.injEq, e1, e2, e3, e4] at h1 h2 h3 h4
    exact ⟨h1, h2, h3, h4⟩

/-- **C28.** A uniform layer extended from either lattice solves exactly when the uniform layer on the
joint expansion does, with the same S-matrix and (when fields are kept) the same modes. -/
theorem C28_uniform {tag : ℕ} {lhs rhs : Expansion M} {se : SumExpansion M} (hse : lhs.add tag rhs = .ok se)
    (hne : lhs.tag ≠ rhs.tag) (lib : NumLib) (kp : ℂ × ℂ) (wl : ℝ) (eps : ℂ) (d : ℝ) (f : Bool)
    (S : SMat (Fin (M * M) ⊕ Fin (M * M))) (W V : Option (Mat2 (M * M))) (L : Option (Vec2 (M * M)))
    {e : Expansion M} (he : e = lhs ∨ e = rhs) {x : ExtLayer (M * M)}
    (hx : ExtLayer.make se { Layer.uniform e eps d with fields := f } = .ok x) :
    (∃ x', x.solve lib kp wl = .ok x' ∧ x'.S = some S ∧ x'.W = W ∧ x'.V = V ∧ x'.L = L) ↔
      ∃ l', ({ Layer.uniform se.exp eps d with fields := f } : Layer (M * M)).solve lib kp wl = .ok l' ∧
        l'.S = some S ∧ l'.W = W ∧ l'.V = V ∧ l'.L = L := by
  obtain ⟨-, -, hl, hr, -⟩ := add_eq_ok hse
  unfold ExtLayer.make at hx
  rcases he with rfl | rfl
  · rw [if_pos (by rw [hl]; rfl), hr] at hx
    cases hx
    exact uniform_extended (add_pos hse) one_lt_two (joint_lhs hse) lib kp wl eps d f S W V L
  · rw [if_neg (by rw [hl]; exact hne), if_pos (by rw [hr]; rfl), hl] at hx
    cases hx
    exact uniform_extended (add_pos hse) zero_lt_two (joint_rhs hse) lib kp wl eps d f S W V L

/-- Non-vacuity of C26–C28: on two 3×3 lattices of periods 1 and 1/2, a vacuum layer of any depth,
extended from either lattice, is accepted and solves (wavelength 4, normal incidence) with 81 orders. -/
theorem extension_example (lib : NumLib) (d : ℝ) (f : Bool) : ∃ (lhs rhs : Expansion 9) (se : SumExpansion 9),
    lhs.add 2 rhs = .ok se ∧ lhs.tag ≠ rhs.tag ∧ ∀ e, (e = lhs ∨ e = rhs) → ∃ x x',
      ExtLayer.make se { Layer.uniform e 1 d with fields := f } = .ok x ∧ x.solve lib (0, 0) 4 = .ok x' := by
  obtain ⟨lhs, rhs, se, -, -, hne, hse, hg⟩ := two_lattices
  refine ⟨lhs, rhs, se, hse, hne, fun e he => ?_⟩
  obtain ⟨-, -, hl, hr, -⟩ := add_eq_ok hse
  obtain ⟨x, hx⟩ : ∃ x, ExtLayer.make se { Layer.uniform e 1 d with fields := f } = .ok x := by
    unfold ExtLayer.make
    rcases he with rfl | rfl
    · rw [if_pos (by rw [hl]; rfl)]; exact ⟨_, rfl⟩
    · rw [if_neg (by rw [hl]; exact hne), if_pos (by rw [hr]; rfl)]; exact ⟨_, rfl⟩
  obtain ⟨R, hR⟩ := vacuum_solve lib se.exp d (0, 0) four_ne_zero fun p => two_lattices_not_grazing (hg p)
  obtain ⟨x', hx', -⟩ := (C28_uniform hse hne lib (0, 0) 4 1 d f R.S _ _ _ he hx).2
    ⟨_, Layer.solve_eq_ok.2 ⟨R, hR, rfl⟩, rfl, rfl, rfl, rfl⟩
  exact ⟨x, x', hx, hx'⟩

/-- Non-vacuity of C27: two S-matrices of three orders extended in mode 1 and cascaded. -/
example : ∃ RA RB R, jointSMat (3 * 3) (List.replicate 3 (scatteringIdentity (Fin 3 ⊕ Fin 3))) 1 = .ok RA ∧
    jointSMat (3 * 3) (List.replicate 3 (⟨0, (2 : ℂ) • 1, 1, 1⟩ : SMat (Fin 3 ⊕ Fin 3))) 1 = .ok RB ∧
    redheffer RA RB = .ok R :=
  ⟨_, _, _, C27_identity (by norm_num) (by norm_num),
    jointSMat_eq_ok.2 ⟨by decide, by norm_num, by simp, rfl⟩, redheffer_id_left _⟩

end Khepri
