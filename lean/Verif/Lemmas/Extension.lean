import Verif.Spec.Extension
import Verif.Lemmas.CrystalView
import Verif.Lemmas.BlockDiag
import Mathlib.Data.Matrix.Block
import Mathlib.LinearAlgebra.Matrix.Reindex

set_option linter.unusedSectionVars false

namespace Khepri

open Matrix

/-! ### Memory -/

/-- Writes to memory, when all writes to an address agree. -/
theorem foldl_update {L : List (ℕ × ℂ)} {o : ℕ} {v : ℂ} (h : ∀ p ∈ L, p.1 = o → p.2 = v) (m : ℕ → ℂ) :
    (L.foldl (fun m p => Function.update m p.1 p.2) m) o = if ∃ p ∈ L, p.1 = o then v else m o := by
  induction L generalizing m with
  | nil => simp
  | cons p L ih =>
    rw [List.foldl_cons, ih fun q hq => h q (by simp [hq])]
    by_cases hp : p.1 = o
    · have hv := h p (by simp) hp
      rw [if_pos (⟨p, by simp, hp⟩ : ∃ q ∈ p :: L, q.1 = o)]
      split_ifs with h'
      · rfl
      · subst hp; simp [hv]
    · have : (∃ q ∈ p :: L, q.1 = o) ↔ ∃ q ∈ L, q.1 = o := by simp [hp]
      simp only [this]
      split_ifs
      · rfl
      · rw [Function.update_of_ne (Ne.symm hp)]

variable {N : ℕ}

/-- The list of writes of one `view[:, :, i] = view_smat`. -/
noncomputable def writesAt (kind i : ℕ) (A : Mat2 N) : List (ℕ × ℂ) :=
  (quads N).map fun q => (jointOffset N kind q.1 q.2.1 i q.2.2.1 q.2.2.2,
    matFlat A (q.1 * (2 * N ^ 2) + q.2.1 * N + q.2.2.1 * (2 * N) + q.2.2.2))

theorem jointWrite_eq (kind i : ℕ) (A : Mat2 N) (mem : ℕ → ℂ) :
    jointWrite kind i A mem = (writesAt kind i A).foldl (fun m p => Function.update m p.1 p.2) mem := by
  rw [jointWrite, writesAt, List.foldl_map]

theorem mem_quads {q : ℕ × ℕ × ℕ × ℕ} : q ∈ quads N ↔ q.1 < 2 ∧ q.2.1 < 2 ∧ q.2.2.1 < N ∧ q.2.2.2 < N := by
  obtain ⟨a, b, r, c⟩ := q
  simp only [quads, List.mem_flatMap, List.mem_range, List.mem_map, Prod.mk.injEq]
  constructor
  · rintro ⟨a', ha, b', hb, r', hr, c', hc, rfl, rfl, rfl, rfl⟩; exact ⟨ha, hb, hr, hc⟩
  · rintro ⟨ha, hb, hr, hc⟩; exact ⟨a, ha, b, hb, r, hr, c, hc, rfl, rfl, rfl, rfl⟩

/-- Row (or column) number of component `a` of joint order `(i, r)`. -/
def jointRow (N kind a i r : ℕ) : ℕ := a * N ^ 2 + if kind = 0 then i * N + r else r * N + i

theorem jointOffset_eq (kind a b i r c : ℕ) :
    jointOffset N kind a b i r c = jointRow N kind a i r * (2 * N ^ 2) + jointRow N kind b i c := by
  unfold jointOffset jointRow
  split_ifs <;> ring

theorem lt_mul_of_lt {i r N : ℕ} (hi : i < N) (hr : r < N) : i * N + r < N ^ 2 := by
  nlinarith

theorem pair_inj {i r i' r' N : ℕ} (hr : r < N) (hr' : r' < N) (h : i * N + r = i' * N + r') :
    i = i' ∧ r = r' := by
  have hN : 0 < N := by omega
  have h1 := congrArg (· / N) h
  have h2 := congrArg (· % N) h
  simp only [Nat.mul_comm _ N, Nat.mul_add_div hN, Nat.div_eq_of_lt hr, Nat.div_eq_of_lt hr',
    Nat.mul_add_mod, Nat.mod_eq_of_lt hr, Nat.mod_eq_of_lt hr'] at h1 h2
  exact ⟨by omega, h2⟩

theorem jointRow_lt {kind a i r : ℕ} (ha : a < 2) (hi : i < N) (hr : r < N) :
    jointRow N kind a i r < 2 * N ^ 2 := by
  have h1 := lt_mul_of_lt hi hr
  have h2 := lt_mul_of_lt hr hi
  unfold jointRow
  interval_cases a <;> split_ifs <;> omega

theorem jointRow_inj {kind a i r a' i' r' : ℕ} (hi : i < N) (hr : r < N) (hi' : i' < N) (hr' : r' < N)
    (h : jointRow N kind a i r = jointRow N kind a' i' r') : a = a' ∧ i = i' ∧ r = r' := by
  unfold jointRow at h
  have e1 := lt_mul_of_lt hi hr
  have e2 := lt_mul_of_lt hr hi
  have e1' := lt_mul_of_lt hi' hr'
  have e2' := lt_mul_of_lt hr' hi'
  split_ifs at h with hk
  · obtain ⟨h1, h2⟩ := pair_inj e1 e1' h
    obtain ⟨h3, h4⟩ := pair_inj hr hr' h2
    exact ⟨h1, h3, h4⟩
  · obtain ⟨h1, h2⟩ := pair_inj e2 e2' h
    obtain ⟨h3, h4⟩ := pair_inj hi hi' h2
    exact ⟨h1, h4, h3⟩

/-- Component number of a Boolean. -/
def bit (b : Bool) : ℕ := if b then 1 else 0

theorem sumIdx_comp (b : Bool) (i : Fin N) : sumIdx (comp b i) = bit b * N + i := by
  cases b <;> simp [comp, sumIdx, bit]

theorem vecAt_comp (f : Fin N ⊕ Fin N → ℂ) (b : Bool) (i : Fin N) : vecAt f (bit b * N + i) = f (comp b i) := by
  have := i.2
  cases b <;> simp [comp, bit, vecAt]

theorem matFlat_comp (A : Mat2 N) (a b : Bool) (r c : Fin N) :
    matFlat A (bit a * (2 * N ^ 2) + bit b * N + r * (2 * N) + c) = A (comp a r) (comp b c) := by
  have hr := r.2
  have hc := c.2
  have e : bit a * (2 * N ^ 2) + bit b * N + r * (2 * N) + c = (2 * N) * (bit a * N + r) + (bit b * N + c) := by
    ring
  have hlt : bit b * N + c < 2 * N := by cases b <;> simp [bit] <;> omega
  have hpos : 0 < 2 * N := by omega
  rw [matFlat, e, Nat.mul_add_mod, Nat.mod_eq_of_lt hlt, Nat.mul_add_div hpos, Nat.div_eq_of_lt hlt,
    Nat.add_zero, vecAt_comp, vecAt_comp]

theorem exists_bit {a : ℕ} (h : a < 2) : ∃ b, a = bit b := by
  interval_cases a
  · exact ⟨false, rfl⟩
  · exact ⟨true, rfl⟩

theorem exists_comp (x : Fin N ⊕ Fin N) : ∃ b i, x = comp b i := by
  rcases x with i | i
  · exact ⟨false, i, rfl⟩
  · exact ⟨true, i, rfl⟩

theorem pairPos_val (i j : Fin N) : (pairPos i j : ℕ) = i * N + j := by
  simp [pairPos, finProdFinEquiv]; ring

theorem exists_jointPos (kind : ℕ) (p : Fin (N * N)) : ∃ i r, p = jointPos kind i r := by
  obtain ⟨⟨i, r⟩, rfl⟩ := finProdFinEquiv.surjective p
  by_cases h : kind = 0
  · exact ⟨i, r, by simp [jointPos, h, pairPos]⟩
  · exact ⟨r, i, by simp [jointPos, h, pairPos]⟩

theorem sumIdx_joint (kind : ℕ) (a : Bool) (i r : Fin N) :
    sumIdx (comp a (jointPos kind i r)) = jointRow N kind (bit a) i r := by
  rw [sumIdx_comp, jointRow, jointPos]
  split_ifs <;> rw [pairPos_val] <;> ring

theorem Extends.unique {kind : ℕ} {A : Fin N → Mat2 N} {R R' : Mat2 (N * N)} (h : Extends kind A R)
    (h' : Extends kind A R') : R = R' := by
  ext x y
  obtain ⟨a, p, rfl⟩ := exists_comp x
  obtain ⟨b, q, rfl⟩ := exists_comp y
  obtain ⟨i, r, rfl⟩ := exists_jointPos kind p
  obtain ⟨j, c, rfl⟩ := exists_jointPos kind q
  rw [h, h']

/-- What `_joint_subspace` returns. -/
theorem jointSubspace_eq_ok {subs : List (Mat2 N)} {kind : ℕ} {R : Mat2 (N * N)} :
    jointSubspace (N * N) subs kind = .ok R ↔ subs ≠ [] ∧ kind < 2 ∧ subs.length ≤ N ∧
      Extends kind (fun i => subs.getD i 0) R := by
  have hfold : ∀ (l : List (Mat2 N × ℕ)) (m m' : ℕ → ℂ),
      (l.foldlM (fun m p => do
        pyCheck (p.2 < N) .index
        return jointWrite kind p.2 p.1 m) m : Py (ℕ → ℂ)) = .ok m' ↔
      (∀ p ∈ l, p.2 < N) ∧
        m' = (l.flatMap fun p => writesAt kind p.2 p.1).foldl (fun m p => Function.update m p.1 p.2) m := by
    intro l
    induction l with
    | nil =>
      intro m m'
      simp only [List.foldlM_nil, pure, Except.pure, Except.ok.injEq, List.not_mem_nil, false_implies,
        implies_true, true_and, List.flatMap_nil, List.foldl_nil]
      exact eq_comm
    | cons p l ih =>
      intro m m'
      rw [List.foldlM_cons]
      simp only [bind_eq_ok, pyCheck_eq_ok, ih]
      simp only [pure, Except.pure, Except.ok.injEq]
      rw [List.flatMap_cons, List.foldl_append, ← jointWrite_eq]
      constructor
      · rintro ⟨a, ⟨_, h1, rfl⟩, h2, rfl⟩
        exact ⟨by simpa [h1] using h2, rfl⟩
      · rintro ⟨h, rfl⟩
        simp only [List.forall_mem_cons] at h
        exact ⟨_, ⟨(), h.1, rfl⟩, h.2, rfl⟩
  have hidx : (∀ p ∈ subs.zipIdx, p.2 < N) ↔ subs.length ≤ N := by
    constructor
    · intro h
      by_contra hc
      push Not at hc
      have : (subs[N], N) ∈ subs.zipIdx := by
        rw [List.mem_zipIdx_iff_getElem?]; simp [hc]
      exact lt_irrefl _ (h _ this)
    · intro h p hp
      obtain ⟨A, i⟩ := p
      rw [List.mem_zipIdx_iff_getElem?] at hp
      obtain ⟨hlt, -⟩ := List.getElem?_eq_some_iff.1 hp
      simp only at hlt ⊢; omega
  have hget : (∃ a, pyGet subs 0 = .ok a) ↔ subs ≠ [] := by
    cases subs <;> simp [pyGet]
  have hok : ∀ {R}, jointSubspace (N * N) subs kind = .ok R ↔ subs ≠ [] ∧ kind < 2 ∧ subs.length ≤ N ∧
      R = Matrix.of fun r c => ((subs.zipIdx.flatMap fun p => writesAt kind p.2 p.1).foldl
        (fun (m : ℕ → ℂ) (p : ℕ × ℂ) => Function.update m p.1 p.2) fun _ => (0 : ℂ)) (sumIdx r * (2 * N ^ 2) + sumIdx c) := by
    intro R
    simp only [jointSubspace, bind_eq_ok, pyCheck_eq_ok, hfold, hidx]
    simp only [pure, Except.pure, Except.ok.injEq]
    constructor
    · rintro ⟨a, ha, _, hk, mem, ⟨hl, rfl⟩, rfl⟩
      exact ⟨hget.1 ⟨a, ha⟩, hk, hl, rfl⟩
    · rintro ⟨h1, hk, hl, rfl⟩
      obtain ⟨a, ha⟩ := hget.2 h1
      exact ⟨a, ha, (), hk, _, ⟨hl, rfl⟩, rfl⟩
  have main : ∀ {R}, jointSubspace (N * N) subs kind = .ok R → subs ≠ [] ∧ kind < 2 ∧ subs.length ≤ N ∧
      Extends kind (fun i => subs.getD i 0) R := by
    intro R h
    obtain ⟨h1, hk, hl, rfl⟩ := hok.1 h
    refine ⟨h1, hk, hl, ?_⟩
    intro s t i j r c
    rw [Matrix.of_apply, sumIdx_joint, sumIdx_joint,
      foldl_update (v := if i = j then subs.getD i 0 (comp s r) (comp t c) else 0)]
    · rw [ite_eq_left_iff]
      intro h
      split_ifs with hij
      · subst hij
        by_cases hi : (i : ℕ) < subs.length
        · exfalso
          apply h
          refine ⟨_, List.mem_flatMap.2 ⟨(subs[(i : ℕ)], i), ?_, List.mem_map.2
            ⟨(bit s, bit t, r, c), mem_quads.2 ⟨?_, ?_, r.2, c.2⟩, rfl⟩⟩, jointOffset_eq _ _ _ _ _ _⟩
          · rw [List.mem_zipIdx_iff_getElem?]; simp [hi]
          · cases s <;> simp [bit]
          · cases t <;> simp [bit]
        · rw [List.getD_eq_getElem?_getD, List.getElem?_eq_none (by omega)]; rfl
      · rfl
    · rintro ⟨o, v⟩ hp ho
      obtain ⟨⟨A, k⟩, hA, hq⟩ := List.mem_flatMap.1 hp
      obtain ⟨⟨a', b', r', c'⟩, hq', he⟩ := List.mem_map.1 hq
      obtain ⟨h1, h2, h3, h4⟩ := mem_quads.1 hq'
      simp only [Prod.mk.injEq] at he
      simp only at ho h1 h2 h3 h4 ⊢
      obtain ⟨he1, he2⟩ := he
      rw [jointOffset_eq] at he1
      rw [List.mem_zipIdx_iff_getElem?] at hA
      obtain ⟨hkl, hAk⟩ := List.getElem?_eq_some_iff.1 hA
      simp only at hkl hAk
      have hkN : k < N := lt_of_lt_of_le hkl hl
      rw [← he1] at ho
      obtain ⟨e1, e2⟩ := pair_inj (jointRow_lt h2 hkN h4)
        (jointRow_lt (by cases t <;> simp [bit]) j.2 c.2) ho
      obtain ⟨f1, f2, f3⟩ := jointRow_inj hkN h3 i.2 r.2 e1
      obtain ⟨g1, g2, g3⟩ := jointRow_inj hkN h4 j.2 c.2 e2
      have hij : i = j := Fin.ext (by omega)
      rw [if_pos hij, ← he2]
      subst hij f1 g1 f2 f3 g3
      rw [matFlat_comp, ← hAk, List.getD_eq_getElem?_getD, List.getElem?_eq_getElem hkl]; rfl
  refine ⟨main, ?_⟩
  rintro ⟨h1, hk, hl, hR⟩
  have := hok.2 ⟨h1, hk, hl, rfl⟩
  rw [this, hR.unique (main this).2.2.2]

/-! ### The joint space as a block-diagonal space -/

/-- Numbering of the pairs (order of the base lattice, g-vector of the other lattice). -/
def pairEquiv (N kind : ℕ) : Fin N × Fin N ≃ Fin (N * N) :=
  if kind = 0 then (Equiv.prodComm _ _).trans finProdFinEquiv else finProdFinEquiv

/-- Numbering of the components of the joint space. -/
def jointEquiv (N kind : ℕ) : (Fin N ⊕ Fin N) × Fin N ≃ Fin (N * N) ⊕ Fin (N * N) :=
  (Equiv.sumProdDistrib _ _ _).trans (Equiv.sumCongr (pairEquiv N kind) (pairEquiv N kind))

theorem jointEquiv_comp (kind : ℕ) (a : Bool) (i r : Fin N) :
    jointEquiv N kind (comp a r, i) = comp a (jointPos kind i r) := by
  cases a <;> by_cases h : kind = 0 <;> simp [jointEquiv, pairEquiv, comp, jointPos, pairPos, h]

theorem extends_iff {kind : ℕ} {A : Fin N → Mat2 N} {R : Mat2 (N * N)} :
    Extends kind A R ↔ R = bd (jointEquiv N kind) A := by
  have h : Extends kind A (bd (jointEquiv N kind) A) := by
    intro a b i j r c
    rw [← jointEquiv_comp, ← jointEquiv_comp, bd_apply]
  exact ⟨fun h' => h'.unique h, fun h' => h' ▸ h⟩

/-- `joint_subspace` extends S-matrices block by block. -/
theorem jointSMat_eq_ok {Ss : List (SMat (Fin N ⊕ Fin N))} {kind : ℕ}
    {R : SMat (Fin (N * N) ⊕ Fin (N * N))} :
    jointSMat (N * N) Ss kind = .ok R ↔ Ss ≠ [] ∧ kind < 2 ∧ Ss.length ≤ N ∧
      R = bdS (jointEquiv N kind) fun i => Ss.getD i ⟨0, 0, 0, 0⟩ := by
  have hD : ∀ (f : SMat (Fin N ⊕ Fin N) → Mat2 N), f ⟨0, 0, 0, 0⟩ = 0 →
      (fun i : Fin N => (Ss.map f).getD i 0) = fun i : Fin N => f (Ss.getD i ⟨0, 0, 0, 0⟩) := by
    intro f hf
    funext i
    simp only [List.getD_eq_getElem?_getD, List.getElem?_map]
    cases Ss[(i : ℕ)]? <;> simp [hf]
  simp only [jointSMat, bind_eq_ok, jointSubspace_eq_ok, List.length_map, ne_eq, List.map_eq_nil_iff,
    extends_iff, hD SMat.s11 rfl, hD SMat.s12 rfl, hD SMat.s21 rfl, hD SMat.s22 rfl]
  simp only [pure, Except.pure, Except.ok.injEq]
  constructor
  · rintro ⟨a, ⟨h1, h2, h3, rfl⟩, b, ⟨-, -, -, rfl⟩, c, ⟨-, -, -, rfl⟩, d, ⟨-, -, -, rfl⟩, rfl⟩
    exact ⟨h1, h2, h3, rfl⟩
  · rintro ⟨h1, h2, h3, rfl⟩
    exact ⟨_, ⟨h1, h2, h3, rfl⟩, _, ⟨h1, h2, h3, rfl⟩, _, ⟨h1, h2, h3, rfl⟩, _, ⟨h1, h2, h3, rfl⟩, rfl⟩

/-! ### The loop of `ExtendedLayer.solve` -/

theorem Layer.store_store (l : Layer N) (r r' : Solved N) : (l.store r).store r' = l.store r' := rfl

/-- What the loop over the g-vectors accumulates. -/
theorem extFold_eq_ok {lib : NumLib} {kp : ℂ × ℂ} {wl : ℝ} {gs : List R2} {f : Bool} {acc acc' : ExtAcc N} (hf : acc.base.fields = f) :
    gs.foldlM (extStep lib f kp wl) acc = .ok acc' ↔
      ∃ rs : List (Solved N),
        List.Forall₂ (fun g r => acc.base.form.solve lib acc.base.expansion acc.base.depth (shiftKp g kp) wl
          = .ok r) gs rs ∧
        acc' = { base := rs.foldl Layer.store acc.base
                 Ss := acc.Ss ++ rs.map Solved.S
                 Ws := acc.Ws ++ if f then rs.map Solved.W else []
                 Vs := acc.Vs ++ if f then rs.map Solved.V else []
                 Ls := acc.Ls ++ if f then rs.map fun r => Matrix.diagonal r.L else [] } := by
  induction gs generalizing acc with
  | nil =>
    simp only [List.foldlM_nil, pure, Except.pure, Except.ok.injEq]
    constructor
    · rintro rfl; exact ⟨[], .nil, by cases acc; simp⟩
    · rintro ⟨rs, h, rfl⟩
      cases h
      cases acc; simp
  | cons g gs ih =>
    have step : ∀ a, extStep lib f kp wl acc g = .ok a ↔
        ∃ r, acc.base.form.solve lib acc.base.expansion acc.base.depth (shiftKp g kp) wl = .ok r ∧
          a = { base := acc.base.store r
                Ss := acc.Ss ++ [r.S]
                Ws := acc.Ws ++ if f then [r.W] else []
                Vs := acc.Vs ++ if f then [r.V] else []
                Ls := acc.Ls ++ if f then [Matrix.diagonal r.L] else [] } := by
      intro a
      simp only [extStep, bind_eq_ok, Layer.solve_eq_ok]
      cases f
      swap
      · simp only [if_true, bind_eq_ok, pySome_eq_ok, pure, Except.pure, Except.ok.injEq]
        constructor
        · rintro ⟨b, ⟨r, h, rfl⟩, S, hS, W, hW, V, hV, L, hL, rfl⟩
          simp only [Layer.store, hf, if_true, Option.some.injEq] at hS hW hV hL
          subst hS hW hV hL
          exact ⟨r, h, rfl⟩
        · rintro ⟨r, h, rfl⟩
          refine ⟨_, ⟨r, h, rfl⟩, r.S, rfl, r.W, ?_, r.V, ?_, r.L, ?_, rfl⟩ <;> simp [Layer.store, hf]
      · simp only [pySome_eq_ok, pure, Except.pure]
        constructor
        · rintro ⟨b, ⟨r, h, rfl⟩, S, hS, h'⟩
          simp only [Layer.store, Option.some.injEq] at hS
          subst hS
          refine ⟨r, h, ?_⟩
          simp at h'
          rw [← h']; simp
        · rintro ⟨r, h, rfl⟩
          exact ⟨_, ⟨r, h, rfl⟩, r.S, rfl, by simp⟩
    rw [List.foldlM_cons, bind_eq_ok]
    simp only [step]
    constructor
    · rintro ⟨a, ⟨r, h, rfl⟩, h2⟩
      obtain ⟨rs, h3, rfl⟩ := (ih (by exact hf)).1 h2
      refine ⟨r :: rs, .cons h h3, ?_⟩
      cases f <;> simp
    · rintro ⟨_, h3, rfl⟩
      cases h3 with
      | @cons _ r _ rs h h3 =>
        refine ⟨_, ⟨r, h, rfl⟩, (ih (by exact hf)).2 ⟨rs, h3, ?_⟩⟩
        cases f <;> simp

/-- The gap modes at a shifted wave vector. -/
noncomputable def gapAt (e : Expansion N) (kp : ℂ × ℂ) (wl : ℝ) (g : R2) : Py (Mat2 N × Mat2 N) := do
  let (kx, ky, _) ← e.kVectors (shiftKp g kp) wl 1
  freeSpaceEigenmodes kx ky

theorem Form.solve_gap {lib : NumLib} {e : Expansion N} {depth : ℝ} {kp : ℂ × ℂ} {wl : ℝ} {g : R2}
    {form : Form} {r : Solved N} (h : form.solve lib e depth (shiftKp g kp) wl = .ok r) :
    ∃ p, gapAt e kp wl g = .ok p := by
  unfold Form.solve at h
  simp only [bind_eq_ok] at h
  obtain ⟨⟨kx, ky, kz⟩, hk, p, hp, -⟩ := h
  exact ⟨p, by simp only [gapAt, hk, ok_bind]; exact hp⟩

theorem extendedFreespace_eq_ok {e : Expansion N} {gs : List R2} {wl : ℝ} {mode : ℕ} {kp : ℂ × ℂ}
    {p : Mat2 (N * N) × Mat2 (N * N)} :
    extendedFreespace (N * N) e gs wl mode kp = .ok p ↔ ∃ ws, List.Forall₂ (fun g w => gapAt e kp wl g = .ok w) gs ws ∧
      gs ≠ [] ∧ mode < 2 ∧ gs.length ≤ N ∧
      p.1 = bd (jointEquiv N mode) (fun i => (ws.map Prod.fst).getD i 0) ∧
      p.2 = bd (jointEquiv N mode) (fun i => (ws.map Prod.snd).getD i 0) := by
  obtain ⟨p1, p2⟩ := p
  simp only [extendedFreespace, gapAt, bind_eq_ok, jointSubspace_eq_ok, extends_iff, List.length_map, ne_eq,
    List.map_eq_nil_iff, mapM_eq_ok]
  constructor
  · rintro ⟨ws, h, W, ⟨h1, h2, h3, rfl⟩, V, ⟨-, -, -, rfl⟩, h4⟩
    simp only [pure, Except.pure, Except.ok.injEq, Prod.mk.injEq] at h4
    refine ⟨ws, h, ?_, h2, by rwa [h.length_eq], h4.1.symm, h4.2.symm⟩
    rintro rfl; cases h; exact h1 rfl
  · rintro ⟨ws, h, h1, h2, h3, h4, h5⟩
    have h1' : ws ≠ [] := by rintro rfl; cases h; exact h1 rfl
    have h3' : ws.length ≤ N := by rwa [← h.length_eq]
    exact ⟨ws, h, _, ⟨h1', h2, h3', rfl⟩, _, ⟨h1', h2, h3', rfl⟩, by rw [h4, h5]; rfl⟩

/-- What `ExtendedLayer.solve` does. -/
theorem ExtLayer.solve_eq_ok {lib : NumLib} {x : Expansion (N * N)} {base : Layer N} {mode : ℕ} {gs : List R2}
    {depth : ℝ} {f : Bool} {S : Option (SMat (Fin (N * N) ⊕ Fin (N * N)))} {W V W0 V0 : Option (Mat2 (N * N))}
    {L : Option (Vec2 (N * N))} {IC : Option (ICVal (N * N))} {l' : ExtLayer (N * N)} {kp : ℂ × ℂ} {wl : ℝ} :
    (⟨N, rfl, x, base, mode, gs, depth, f, S, W, V, W0, V0, L, IC⟩ : ExtLayer (N * N)).solve lib kp wl = .ok l' ↔
      ∃ rs ws, List.Forall₂ (fun g r => base.form.solve lib base.expansion base.depth (shiftKp g kp) wl
          = .ok r) gs rs ∧
        List.Forall₂ (fun g w => gapAt base.expansion kp wl g = .ok w) gs ws ∧
        gs ≠ [] ∧ mode < 2 ∧ gs.length ≤ N ∧
        l' = ⟨N, rfl, x, rs.foldl Layer.store { base with fields := f }, mode, gs, depth, f,
          some (bdS (jointEquiv N mode) fun i => (rs.map Solved.S).getD i ⟨0, 0, 0, 0⟩),
          if f then some (bd (jointEquiv N mode) fun i => (rs.map Solved.W).getD i 0) else W,
          if f then some (bd (jointEquiv N mode) fun i => (rs.map Solved.V).getD i 0) else V,
          if f then some (bd (jointEquiv N mode) fun i => (ws.map Prod.fst).getD i 0) else W0,
          if f then some (bd (jointEquiv N mode) fun i => (ws.map Prod.snd).getD i 0) else V0,
          if f then some (fun p => bd (jointEquiv N mode)
            (fun i => (rs.map fun r => Matrix.diagonal r.L).getD i 0) p p) else L,
          some (.num 1)⟩ := by
  have gaps : ∀ {rs : List (Solved N)}, List.Forall₂ (fun g r => base.form.solve lib base.expansion base.depth
      (shiftKp g kp) wl = .ok r) gs rs → ∃ ws, List.Forall₂ (fun g w => gapAt base.expansion kp wl g = .ok w) gs ws := by
    intro rs h
    induction h with
    | nil => exact ⟨[], .nil⟩
    | cons h _ ih =>
      obtain ⟨ws, hws⟩ := ih
      obtain ⟨w, hw⟩ := Form.solve_gap h
      exact ⟨w :: ws, .cons hw hws⟩
  have funct : ∀ {ws ws' : List (Mat2 N × Mat2 N)}, List.Forall₂ (fun g w => gapAt base.expansion kp wl g = .ok w) gs ws →
      List.Forall₂ (fun g w => gapAt base.expansion kp wl g = .ok w) gs ws' → ws = ws' :=
    fun h h' => forall₂_functional (fun _ _ _ h1 h2 => by rw [h1] at h2; exact Except.ok.inj h2) h h'
  unfold ExtLayer.solve
  simp only [bind_eq_ok]
  constructor
  · rintro ⟨acc, hacc, R, hR, h⟩
    obtain ⟨rs, hrs, rfl⟩ := (extFold_eq_ok (by rfl)).1 hacc
    obtain ⟨ws, hws⟩ := gaps hrs
    simp only [List.nil_append, jointSMat_eq_ok, List.length_map, ne_eq, List.map_eq_nil_iff] at hR
    obtain ⟨h1, h2, h3, rfl⟩ := hR
    have h1' : gs ≠ [] := by rintro rfl; cases hrs; exact h1 rfl
    have h3' : gs.length ≤ N := by rwa [hrs.length_eq]
    refine ⟨rs, ws, hrs, hws, h1', h2, h3', ?_⟩
    cases f
    · simp only [Bool.false_eq_true, if_false, pure, Except.pure, Except.ok.injEq] at h ⊢
      exact h.symm
    · simp only [if_true, bind_eq_ok, jointSubspace_eq_ok, extends_iff, List.nil_append,
        extendedFreespace_eq_ok] at h
      obtain ⟨_, ⟨-, -, -, rfl⟩, _, ⟨-, -, -, rfl⟩, ⟨p1, p2⟩, ⟨ws', hws', -, -, -, rfl, rfl⟩, _,
        ⟨-, -, -, rfl⟩, h⟩ := h
      cases funct hws hws'
      simp only [pure, Except.pure, Except.ok.injEq] at h
      simp only [if_true]
      exact h.symm
  · rintro ⟨rs, ws, hrs, hws, h1, h2, h3, rfl⟩
    have h1' : rs ≠ [] := by rintro rfl; cases hrs; exact h1 rfl
    have h3' : rs.length ≤ N := by rwa [← hrs.length_eq]
    refine ⟨_, (extFold_eq_ok (by rfl)).2 ⟨rs, hrs, rfl⟩, _, jointSMat_eq_ok.2 ⟨by simpa using h1', h2,
      by simpa using h3', rfl⟩, ?_⟩
    cases f
    · simp only [Bool.false_eq_true, if_false, pure, Except.pure, List.nil_append]
    · simp only [if_true, bind_eq_ok, jointSubspace_eq_ok, extends_iff, List.nil_append,
        extendedFreespace_eq_ok]
      exact ⟨_, ⟨by simpa using h1', h2, by simpa using h3', rfl⟩, _, ⟨by simpa using h1', h2,
        by simpa using h3', rfl⟩, (_, _), ⟨ws, hws, h1, h2, h3, rfl, rfl⟩, _,
        ⟨by simpa using h1', h2, by simpa using h3', rfl⟩, rfl⟩

end Khepri
