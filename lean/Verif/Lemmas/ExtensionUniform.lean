import Verif.Lemmas.Extension
import Verif.Lemmas.Expansion

set_option linter.unusedSectionVars false

/-!
# Uniform media in the joint space
-/

namespace Khepri

open Matrix

variable {N : ℕ}

/-- The expansion `x` lists, in numbering `kind`, the orders of `base` shifted by the vectors `gs`. -/
def Joint (x : Expansion (N * N)) (base : Expansion N) (kind : ℕ) (gs : Fin N → R2) : Prop :=
  ∀ i r, x.g (jointPos kind i r) = ((base.g r).1 + (gs i).1, (base.g r).2 + (gs i).2)

theorem pairPos_eq (i j : Fin N) : pairPos i j = pairIdx i j := Fin.ext (pairPos_val i j)

theorem joint_lhs {tag : ℕ} {l r : Expansion N} {se : SumExpansion N} (h : l.add tag r = .ok se) :
    Joint se.exp l 1 r.g := by
  intro i c
  obtain ⟨-, -, -, -, -, hg⟩ := add_eq_ok h
  rw [jointPos, if_neg one_ne_zero, pairPos_eq, hg]

theorem joint_rhs {tag : ℕ} {l r : Expansion N} {se : SumExpansion N} (h : l.add tag r = .ok se) :
    Joint se.exp r 0 l.g := by
  intro i c
  obtain ⟨-, -, -, -, -, hg⟩ := add_eq_ok h
  rw [jointPos, if_pos rfl, pairPos_eq, hg, add_comm, add_comm (l.g i).2]

theorem add_pos {tag : ℕ} {l r : Expansion N} {se : SumExpansion N} (h : l.add tag r = .ok se) : 0 < N := by
  obtain ⟨h1, h2, -⟩ := add_eq_ok h
  rw [← l.hpw]
  exact Nat.mul_pos (by omega) (by omega)

/-- In-plane wave vectors of the joint expansion. -/
theorem joint_kVectors {x : Expansion (N * N)} {base : Expansion N} {kind : ℕ} {gs : Fin N → R2}
    (h : Joint x base kind gs) {kp : ℂ × ℂ} {wl : ℝ} {Kx Ky Kz} {kx ky kz : Fin N → Fin N → ℂ}
    (hK : x.kVectors kp wl 1 = .ok (Kx, Ky, Kz))
    (hk : ∀ i, base.kVectors (shiftKp (gs i) kp) wl 1 = .ok (kx i, ky i, kz i)) (i r : Fin N) :
    Kx (jointPos kind i r) = kx i r ∧ Ky (jointPos kind i r) = ky i r ∧ Kz (jointPos kind i r) = kz i r := by
  obtain ⟨-, h1, h2, h3⟩ := kVectors_eq_ok.1 hK
  obtain ⟨-, g1, g2, g3⟩ := kVectors_eq_ok.1 (hk i)
  simp only at h1 h2 h3 g1 g2 g3
  have e1 : kp.1 + ((x.g (jointPos kind i r)).1 : ℂ) = (shiftKp (gs i) kp).1 + ((base.g r).1 : ℂ) := by
    rw [h i r]; simp only [shiftKp]; push_cast; ring
  have e2 : kp.2 + ((x.g (jointPos kind i r)).2 : ℂ) = (shiftKp (gs i) kp).2 + ((base.g r).2 : ℂ) := by
    rw [h i r]; simp only [shiftKp]; push_cast; ring
  simp only [h1, h2, h3, g1, g2, g3, e1, e2, and_self]

/-- One 2×2 block of `qBlock`. -/
def qEntry (a b : Bool) (x y e : ℂ) : ℂ :=
  match a, b with
  | false, false => x * y
  | false, true => e - x * x
  | true, false => y * y - e
  | true, true => -(y * x)

theorem qBlock_comp (kx ky : Fin N → ℂ) (e : ℂ) (a b : Bool) (p q : Fin N) :
    qBlock kx ky e (comp a p) (comp b q) = if p = q then qEntry a b (kx p) (ky p) e else 0 := by
  by_cases h : p = q
  · subst h
    cases a <;> cases b <;> simp [qBlock, comp, qEntry, Matrix.sub_apply]
  · cases a <;> cases b <;> simp [qBlock, comp, h]

theorem stack2_comp (v : Fin N → ℂ) (b : Bool) (p : Fin N) : stack2 v (comp b p) = v p := by
  cases b <;> simp [stack2, comp]

theorem jointPos_inj {kind : ℕ} {i j r c : Fin N} :
    jointPos kind i r = jointPos kind j c ↔ i = j ∧ r = c := by
  unfold jointPos pairPos
  split_ifs
  · simp
  · simp [and_comm]

section
variable {kind : ℕ} {Kx Ky : Fin (N * N) → ℂ} {kx ky : Fin N → Fin N → ℂ}

/-- The matrix `Q / λ` of a uniform medium, in the joint space. -/
theorem bd_qBlock (hx : ∀ i r, Kx (jointPos kind i r) = kx i r) (hy : ∀ i r, Ky (jointPos kind i r) = ky i r)
    (e : ℂ) (f : ℂ → ℂ → ℂ) :
    (Matrix.of fun x y => qBlock Kx Ky e x y / stack2 (fun p => f (Kx p) (Ky p)) y) =
      bd (jointEquiv N kind) fun i => Matrix.of fun x y =>
        qBlock (kx i) (ky i) e x y / stack2 (fun p => f (kx i p) (ky i p)) y := by
  rw [← extends_iff]
  intro a b i j r c
  simp only [Matrix.of_apply, qBlock_comp, stack2_comp, hx, hy, jointPos_inj]
  by_cases hij : i = j <;> by_cases hrc : r = c <;> simp [hij, hrc]

theorem stack2_joint (hx : ∀ i r, Kx (jointPos kind i r) = kx i r) (hy : ∀ i r, Ky (jointPos kind i r) = ky i r)
    (f : ℂ → ℂ → ℂ) :
    stack2 (fun p => f (Kx p) (Ky p)) = fun x =>
      stack2 (fun p => f (kx ((jointEquiv N kind).symm x).2 p) (ky ((jointEquiv N kind).symm x).2 p))
        ((jointEquiv N kind).symm x).1 := by
  funext x
  obtain ⟨⟨y, i⟩, rfl⟩ := (jointEquiv N kind).surjective x
  obtain ⟨a, r, rfl⟩ := exists_comp y
  rw [Equiv.symm_apply_apply, jointEquiv_comp, stack2_comp, stack2_comp, hx, hy]

theorem joint_forall {P : ℂ → ℂ → Prop} (hx : ∀ i r, Kx (jointPos kind i r) = kx i r)
    (hy : ∀ i r, Ky (jointPos kind i r) = ky i r) :
    (∀ p, P (Kx p) (Ky p)) ↔ ∀ i r, P (kx i r) (ky i r) := by
  constructor
  · intro h i r; rw [← hx, ← hy]; exact h _
  · intro h p
    obtain ⟨i, r, rfl⟩ := exists_jointPos kind p
    rw [hx, hy]; exact h i r

/-- Gap modes in the joint space. -/
theorem joint_freeSpace (hx : ∀ i r, Kx (jointPos kind i r) = kx i r)
    (hy : ∀ i r, Ky (jointPos kind i r) = ky i r) {R : Mat2 (N * N) × Mat2 (N * N)} :
    freeSpaceEigenmodes Kx Ky = .ok R ↔ ∃ w : Fin N → Mat2 N × Mat2 N,
      (∀ i, freeSpaceEigenmodes (kx i) (ky i) = .ok (w i)) ∧
      R.1 = bd (jointEquiv N kind) (fun i => (w i).1) ∧ R.2 = bd (jointEquiv N kind) fun i => (w i).2 := by
  simp only [freeSpaceEigenmodes_eq_ok]
  have hall := joint_forall (P := fun x y => 1 - x ^ 2 - y ^ 2 ≠ 0) hx hy
  have hV := bd_qBlock hx hy 1 fun x y => Complex.I * kzMasked (1 - x ^ 2 - y ^ 2)
  constructor
  · rintro ⟨h1, h2, h3⟩
    refine ⟨fun i => (1, _), fun i => ⟨hall.1 h1 i, rfl, rfl⟩, ?_, ?_⟩
    · rw [h2, bd_one]
    · rw [h3, hV]
  · rintro ⟨w, h, h4, h5⟩
    refine ⟨hall.2 fun i => (h i).1, ?_, ?_⟩
    · rw [h4, show (fun i => (w i).1) = fun _ => 1 from funext fun i => (h i).2.1, bd_one]
    · rw [h5, hV]
      congr 1; funext i; exact (h i).2.2

/-- Modes of a uniform layer in the joint space. -/
theorem joint_uniform (hN : 0 < N) (hx : ∀ i r, Kx (jointPos kind i r) = kx i r)
    (hy : ∀ i r, Ky (jointPos kind i r) = ky i r) {eps : ℂ} {R : Mat2 (N * N) × Mat2 (N * N) × Vec2 (N * N)} :
    solveUniformLayer Kx Ky eps = .ok R ↔ ∃ w : Fin N → Mat2 N × Mat2 N × Vec2 N,
      (∀ i, solveUniformLayer (kx i) (ky i) eps = .ok (w i)) ∧
      R.1 = bd (jointEquiv N kind) (fun i => (w i).1) ∧ R.2.1 = bd (jointEquiv N kind) (fun i => (w i).2.1) ∧
      R.2.2 = fun x => (w ((jointEquiv N kind).symm x).2).2.2 ((jointEquiv N kind).symm x).1 := by
  simp only [solveUniformLayer_eq_ok]
  have hall := joint_forall (P := fun x y => eps - x ^ 2 - y ^ 2 ≠ 0) hx hy
  have hV := bd_qBlock hx hy eps fun x y => Complex.I * kzMasked (eps - x ^ 2 - y ^ 2)
  have hL := stack2_joint hx hy fun x y => Complex.I * kzMasked (eps - x ^ 2 - y ^ 2)
  constructor
  · rintro ⟨h0, h1, h2, h3, h4⟩
    refine ⟨fun i => (1, Matrix.of fun x y => qBlock (kx i) (ky i) eps x y /
      stack2 (fun p => Complex.I * kzMasked (eps - kx i p ^ 2 - ky i p ^ 2)) y,
      stack2 fun p => Complex.I * kzMasked (eps - kx i p ^ 2 - ky i p ^ 2)),
      fun i => ⟨h0, hall.1 h1 i, rfl, rfl, rfl⟩, ?_, ?_, ?_⟩
    · rw [h2, bd_one]
    · rw [h4, h3, hV]
    · rw [h3, hL]
  · rintro ⟨w, h, h4, h5, h6⟩
    have hLL : R.2.2 = stack2 fun p => Complex.I * kzMasked (eps - Kx p ^ 2 - Ky p ^ 2) := by
      rw [h6, hL]
      funext x
      rw [(h _).2.2.2.1]
    refine ⟨(h ⟨0, hN⟩).1, hall.2 fun i => (h i).2.1, ?_, hLL, ?_⟩
    · rw [h4, show (fun i => (w i).1) = fun _ => 1 from funext fun i => (h i).2.2.1, bd_one]
    · rw [h5, hLL, hV]
      congr 1; funext i
      rw [(h i).2.2.2.2, (h i).2.2.2.1]

end

theorem forall₂_ofFn {α β : Type} {R : α → β → Prop} {n : ℕ} {f : Fin n → α} {l : List β} :
    List.Forall₂ R (List.ofFn f) l ↔ ∃ g : Fin n → β, l = List.ofFn g ∧ ∀ i, R (f i) (g i) := by
  constructor
  · intro h
    have hl : n = l.length := by simpa using h.length_eq
    subst hl
    refine ⟨fun i => l.get i, by simp, fun i => ?_⟩
    have := (List.forall₂_iff_get.1 h).2 i (by simp) i.2
    simpa using this
  · rintro ⟨g, rfl, h⟩
    rw [List.forall₂_iff_get]
    refine ⟨by simp, fun i h1 h2 => ?_⟩
    simpa using h ⟨i, by simpa using h1⟩

theorem getD_map_ofFn {α β : Type} {n : ℕ} (f : Fin n → α) (g : α → β) (d : β) (i : Fin n) :
    ((List.ofFn f).map g).getD i d = g (f i) := by
  simp [List.getD_eq_getElem?_getD]

theorem ofFn_ne_nil {α : Type} {n : ℕ} (hn : 0 < n) (f : Fin n → α) : List.ofFn f ≠ [] := by
  intro h
  have := congrArg List.length h
  simp at this; omega

/-- The gap of the joint expansion, and that of `extended_freespace`. -/
theorem joint_gap {x : Expansion (N * N)} {base : Expansion N} {kind : ℕ} {gs : Fin N → R2} (hN : 0 < N)
    (hk : kind < 2) (h : Joint x base kind gs) {kp : ℂ × ℂ} {wl : ℝ} {R : Mat2 (N * N) × Mat2 (N * N)} :
    (∃ Kx Ky Kz, x.kVectors kp wl 1 = .ok (Kx, Ky, Kz) ∧ freeSpaceEigenmodes Kx Ky = .ok R) ↔
      extendedFreespace (N * N) base (List.ofFn gs) wl kind kp = .ok R := by
  rw [extendedFreespace_eq_ok]
  simp only [forall₂_ofFn, gapAt, bind_eq_ok]
  constructor
  · rintro ⟨Kx, Ky, Kz, hK, hR⟩
    have hwl := (kVectors_eq_ok.1 hK).1
    have hk' : ∀ i, ∃ q : (Fin N → ℂ) × (Fin N → ℂ) × (Fin N → ℂ),
        base.kVectors (shiftKp (gs i) kp) wl 1 = .ok q := fun i =>
      ⟨(_, _, _), kVectors_eq_ok.2 ⟨hwl, rfl, rfl, rfl⟩⟩
    choose q hq using hk'
    have hj := joint_kVectors h hK hq
    obtain ⟨w, hw, e1, e2⟩ := (joint_freeSpace (fun i r => (hj i r).1) fun i r => (hj i r).2.1).1 hR
    refine ⟨_, ⟨w, rfl, fun i => ⟨_, hq i, hw i⟩⟩, ofFn_ne_nil hN _, hk, by simp, ?_, ?_⟩
    · simp only [getD_map_ofFn]; exact e1
    · simp only [getD_map_ofFn]; exact e2
  · rintro ⟨_, ⟨w, rfl, hw⟩, -, -, -, e1, e2⟩
    simp only [getD_map_ofFn] at e1 e2
    choose q hq hw using hw
    have hwl := (kVectors_eq_ok.1 (hq ⟨0, hN⟩)).1
    obtain ⟨Q, hQ⟩ : ∃ Q, x.kVectors kp wl 1 = .ok Q := ⟨(_, _, _), kVectors_eq_ok.2 ⟨hwl, rfl, rfl, rfl⟩⟩
    have hj := joint_kVectors h hQ hq
    exact ⟨Q.1, Q.2.1, Q.2.2, hQ, (joint_freeSpace (fun i r => (hj i r).1) fun i r => (hj i r).2.1).2
      ⟨w, hw, e1, e2⟩⟩

/-- A uniform layer solved on the joint expansion, block by block. -/
theorem joint_uniform_solve {x : Expansion (N * N)} {base : Expansion N} {kind : ℕ} {gs : Fin N → R2}
    (hN : 0 < N) (h : Joint x base kind gs) {lib : NumLib} {kp : ℂ × ℂ} {wl : ℝ} {eps : ℂ}
    {d : ℝ} {R : Solved (N * N)} :
    (Form.uniform eps).solve lib x d kp wl = .ok R ↔ ∃ rs : Fin N → Solved N,
      (∀ i, (Form.uniform eps).solve lib base d (shiftKp (gs i) kp) wl = .ok (rs i)) ∧
      R.S = bdS (jointEquiv N kind) (fun i => (rs i).S) ∧ R.W = bd (jointEquiv N kind) (fun i => (rs i).W) ∧
      R.V = bd (jointEquiv N kind) (fun i => (rs i).V) ∧
      (R.L = fun y => (rs ((jointEquiv N kind).symm y).2).L ((jointEquiv N kind).symm y).1) ∧
      R.IC = .num (1 / eps) := by
  simp only [Form.solve, bind_eq_ok, inverseEps_eq_ok]
  simp only [pure, Except.pure, Except.ok.injEq]
  constructor
  · rintro ⟨K, hK, w0, h0, w, hw, S, hS, ic, ⟨he, rfl⟩, rfl⟩
    have hwl := (kVectors_eq_ok.1 hK).1
    have hk' : ∀ i, ∃ q : (Fin N → ℂ) × (Fin N → ℂ) × (Fin N → ℂ),
        base.kVectors (shiftKp (gs i) kp) wl 1 = .ok q := fun i =>
      ⟨(_, _, _), kVectors_eq_ok.2 ⟨hwl, rfl, rfl, rfl⟩⟩
    choose q hq using hk'
    have hj := joint_kVectors h hK hq
    obtain ⟨v0, hv0, e1, e2⟩ := (joint_freeSpace (fun i r => (hj i r).1) fun i r => (hj i r).2.1).1 h0
    obtain ⟨v, hv, f1, f2, f3⟩ := (joint_uniform hN (fun i r => (hj i r).1) fun i r => (hj i r).2.1).1 hw
    rw [e1, e2, f1, f2, f3, bd_buildScatmat (lam := fun i => (v i).2.2)] at hS
    obtain ⟨C, rfl, hC⟩ := hS
    exact ⟨fun i => ⟨(v i).1, (v i).2.1, (v i).2.2, C i, .num (1 / eps)⟩,
      fun i => ⟨q i, hq i, v0 i, hv0 i, v i, hv i, C i, hC i, _, ⟨he, rfl⟩, rfl⟩, rfl, f1, f2, f3, rfl⟩
  · rintro ⟨rs, hrs, g1, g2, g3, g4, g5⟩
    choose q hq v0 hv0 v hv C hC ic hic hrs using hrs
    have hwl := (kVectors_eq_ok.1 (hq ⟨0, hN⟩)).1
    obtain ⟨Q, hQ⟩ : ∃ Q, x.kVectors kp wl 1 = .ok Q := ⟨(_, _, _), kVectors_eq_ok.2 ⟨hwl, rfl, rfl, rfl⟩⟩
    have hj := joint_kVectors h hQ hq
    refine ⟨Q, hQ, (_, _), (joint_freeSpace (fun i r => (hj i r).1) fun i r => (hj i r).2.1).2
      ⟨v0, hv0, rfl, rfl⟩, (_, _, _), (joint_uniform hN (fun i r => (hj i r).1) fun i r => (hj i r).2.1).2
      ⟨v, hv, rfl, rfl, rfl⟩, _, (bd_buildScatmat (jointEquiv N kind) (lam := fun i => (v i).2.2)).2
      ⟨C, rfl, hC⟩, _, ⟨(hic ⟨0, hN⟩).1, rfl⟩, ?_⟩
    obtain ⟨W, V, L, S, IC⟩ := R
    simp only at g1 g2 g3 g4 g5
    simp only [Solved.mk.injEq, g1, g2, g3, g4, g5, ← hrs, and_self]
    exact ⟨rfl, rfl, trivial⟩

end Khepri
