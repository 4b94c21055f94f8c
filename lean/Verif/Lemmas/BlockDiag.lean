import Verif.Spec.Extension
import Verif.Lemmas.Device
import Verif.Lemmas.Stack
import Mathlib.Data.Matrix.Block
import Mathlib.LinearAlgebra.Matrix.Reindex
import Mathlib.LinearAlgebra.Matrix.Block

set_option linter.unusedSectionVars false

/-!
# Block-diagonal matrices and the S-matrix functions
-/

namespace Khepri

open Matrix

variable {n o m : Type} [Fintype n] [DecidableEq n] [Fintype o] [DecidableEq o] [Fintype m] [DecidableEq m]

/-- The block-diagonal matrix with blocks `A i`, in the numbering `e`. -/
def bd (e : n × o ≃ m) (A : o → Matrix n n ℂ) : Matrix m m ℂ := (blockDiagonal A).submatrix e.symm e.symm

/-- The S-matrix with block-diagonal blocks. -/
def bdS (e : n × o ≃ m) (S : o → SMat n) : SMat m :=
  ⟨bd e fun i => (S i).s11, bd e fun i => (S i).s12, bd e fun i => (S i).s21, bd e fun i => (S i).s22⟩

variable (e : n × o ≃ m)

theorem bd_apply (A : o → Matrix n n ℂ) (r c : n) (i j : o) :
    bd e A (e (r, i)) (e (c, j)) = if i = j then A i r c else 0 := by
  simp [bd, blockDiagonal_apply]

theorem bd_mul (A B : o → Matrix n n ℂ) : bd e (fun i => A i * B i) = bd e A * bd e B := by
  rw [bd, bd, bd, submatrix_mul_equiv, ← blockDiagonal_mul]

theorem bd_add (A B : o → Matrix n n ℂ) : bd e (fun i => A i + B i) = bd e A + bd e B := by
  rw [bd, show (fun i => A i + B i) = A + B from rfl, blockDiagonal_add]; rfl

theorem bd_sub (A B : o → Matrix n n ℂ) : bd e (fun i => A i - B i) = bd e A - bd e B := by
  rw [bd, show (fun i => A i - B i) = A - B from rfl, blockDiagonal_sub]; rfl

theorem bd_neg (A : o → Matrix n n ℂ) : bd e (fun i => -A i) = -bd e A := by
  rw [bd, show (fun i => -A i) = -A from rfl, blockDiagonal_neg]; rfl

theorem bd_smul (c : ℂ) (A : o → Matrix n n ℂ) : bd e (fun i => c • A i) = c • bd e A := by
  rw [bd, show (fun i => c • A i) = c • A from rfl, blockDiagonal_smul]; rfl

theorem bd_one : bd e (fun _ => (1 : Matrix n n ℂ)) = 1 := by
  have := blockDiagonal_one (m := n) (o := o) (α := ℂ)
  rw [bd, show (fun _ : o => (1 : Matrix n n ℂ)) = 1 from rfl, this, submatrix_one_equiv]

theorem bd_zero : bd e (fun _ => (0 : Matrix n n ℂ)) = 0 := by
  have := blockDiagonal_zero (m := n) (n := n) (o := o) (α := ℂ)
  rw [bd, show (fun _ : o => (0 : Matrix n n ℂ)) = 0 from rfl, this, submatrix_zero]; rfl

theorem bd_diagonal (L : o → n → ℂ) :
    bd e (fun i => diagonal (L i)) = diagonal fun x => L (e.symm x).2 (e.symm x).1 := by
  ext x y
  obtain ⟨⟨r, i⟩, rfl⟩ := e.surjective x
  obtain ⟨⟨c, j⟩, rfl⟩ := e.surjective y
  rw [bd_apply, diagonal_apply, diagonal_apply]
  simp only [EmbeddingLike.apply_eq_iff_eq, Prod.mk.injEq, Equiv.symm_apply_apply]
  by_cases h : i = j <;> by_cases h' : r = c <;> simp [h, h']

theorem bd_det (A : o → Matrix n n ℂ) : (bd e A).det = ∏ i, (A i).det := by
  rw [bd, det_submatrix_equiv_self, det_blockDiagonal]

theorem bd_det_ne {A : o → Matrix n n ℂ} : (bd e A).det ≠ 0 ↔ ∀ i, (A i).det ≠ 0 := by
  rw [bd_det, Finset.prod_ne_zero_iff]; simp

theorem bd_inv {A : o → Matrix n n ℂ} (h : ∀ i, (A i).det ≠ 0) : (bd e A)⁻¹ = bd e fun i => (A i)⁻¹ := by
  apply Matrix.inv_eq_right_inv
  rw [← bd_mul, ← bd_one e]
  congr 1; funext i
  exact Matrix.mul_nonsing_inv _ (isUnit_iff_ne_zero.2 (h i))

theorem bd_injective : Function.Injective (bd e) := by
  intro A B h
  funext i; ext r c
  have := congrFun (congrFun h (e (r, i))) (e (c, i))
  simpa [bd_apply] using this

theorem bdS_injective : Function.Injective (bdS e) := by
  intro A B h
  rw [bdS, bdS, SMat.mk.injEq] at h
  funext i
  exact SMat.ext (congrFun (bd_injective e h.1) i) (congrFun (bd_injective e h.2.1) i)
    (congrFun (bd_injective e h.2.2.1) i) (congrFun (bd_injective e h.2.2.2) i)

theorem bdS_identity : bdS e (fun _ => scatteringIdentity n) = scatteringIdentity m := by
  rw [bdS, scatteringIdentity]
  simp only [scatteringIdentity, bd_one, bd_zero]

/-- The Redheffer product works block by block. -/
theorem bd_redheffer {A B : o → SMat n} {R : SMat m} :
    redheffer (bdS e A) (bdS e B) = .ok R ↔
      ∃ C, R = bdS e C ∧ ∀ i, redheffer (A i) (B i) = .ok (C i) := by
  simp only [redheffer_eq_ok]
  have hD : 1 - (bdS e B).s11 * (bdS e A).s22 = bd e fun i => 1 - (B i).s11 * (A i).s22 := by
    rw [bd_sub, bd_one, bd_mul]; rfl
  have hF : 1 - (bdS e A).s22 * (bdS e B).s11 = bd e fun i => 1 - (A i).s22 * (B i).s11 := by
    rw [bd_sub, bd_one, bd_mul]; rfl
  have hval : (∀ i, (1 - (B i).s11 * (A i).s22).det ≠ 0) →
      redhefferVal (bdS e A) (bdS e B) = bdS e fun i => redhefferVal (A i) (B i) := by
    intro h
    have h' : ∀ i, (1 - (A i).s22 * (B i).s11).det ≠ 0 := fun i => by
      have := h i; rwa [det_one_sub_comm] at this
    rw [redhefferVal, hD, hF, bd_inv e h, bd_inv e h']
    simp only [redhefferVal, bdS, bd_add, bd_mul]
  rw [hD, bd_det_ne]
  constructor
  · rintro ⟨h, rfl⟩; exact ⟨_, hval h, fun i => ⟨h i, rfl⟩⟩
  · rintro ⟨C, rfl, h⟩
    refine ⟨fun i => (h i).1, ?_⟩
    rw [hval fun i => (h i).1]
    congr 1; funext i; exact (h i).2

/-- Ordered cascades work block by block. -/
theorem bd_leftFold {P : o → SMat n} {Ls : List (o → SMat n)} {R : SMat m} :
    leftFold (bdS e P) (Ls.map (bdS e)) = .ok R ↔
      ∃ C, R = bdS e C ∧ ∀ i, leftFold (P i) (Ls.map fun L => L i) = .ok (C i) := by
  induction Ls generalizing P with
  | nil =>
    simp only [leftFold, List.map_nil, Except.ok.injEq]
    constructor
    · rintro rfl; exact ⟨P, rfl, fun _ => rfl⟩
    · rintro ⟨C, rfl, h⟩; congr 1; funext i; exact h i
  | cons L Ls ih =>
    simp only [leftFold, List.map_cons, bind_eq_ok, bd_redheffer]
    constructor
    · rintro ⟨_, ⟨C, rfl, h1⟩, h2⟩
      obtain ⟨D, rfl, h3⟩ := ih.1 h2
      exact ⟨D, rfl, fun i => ⟨C i, h1 i, h3 i⟩⟩
    · rintro ⟨D, rfl, h⟩
      choose C h1 h2 using h
      exact ⟨_, ⟨C, rfl, h1⟩, ih.2 ⟨D, rfl, h2⟩⟩

/-- Ordered cascades from the right work block by block. -/
theorem bd_revFold {P : o → SMat n} {Ls : List (o → SMat n)} {R : SMat m} :
    revFold (bdS e P) (Ls.map (bdS e)) = .ok R ↔
      ∃ C, R = bdS e C ∧ ∀ i, revFold (P i) (Ls.map fun L => L i) = .ok (C i) := by
  induction Ls generalizing P with
  | nil =>
    simp only [revFold, List.map_nil, Except.ok.injEq]
    constructor
    · rintro rfl; exact ⟨P, rfl, fun _ => rfl⟩
    · rintro ⟨C, rfl, h⟩; congr 1; funext i; exact h i
  | cons L Ls ih =>
    simp only [revFold, List.map_cons, bind_eq_ok, bd_redheffer]
    constructor
    · rintro ⟨_, ⟨C, rfl, h1⟩, h2⟩
      obtain ⟨D, rfl, h3⟩ := ih.1 h2
      exact ⟨D, rfl, fun i => ⟨C i, h1 i, h3 i⟩⟩
    · rintro ⟨D, rfl, h⟩
      choose C h1 h2 using h
      exact ⟨_, ⟨C, rfl, h1⟩, ih.2 ⟨D, rfl, h2⟩⟩

/-- `build_scatmat` works block by block. -/
theorem bd_buildScatmat {W V W0 V0 : o → Matrix n n ℂ} {lam : o → n → ℂ} {d k0 : ℝ} {R : SMat m} :
    buildScatmat (bd e W) (bd e V) (bd e W0) (bd e V0) (fun x => lam (e.symm x).2 (e.symm x).1) d k0 = .ok R ↔
      ∃ C, R = bdS e C ∧ ∀ i, buildScatmat (W i) (V i) (W0 i) (V0 i) (lam i) d k0 = .ok (C i) := by
  have hX : propX (fun x => lam (e.symm x).2 (e.symm x).1) (d * k0) = bd e fun i => propX (lam i) (d * k0) := by
    simp only [propX, bd_diagonal]
  simp only [buildScatmat_eq_ok, hX]
  have hA : (∀ i, (W i).det ≠ 0) → (∀ i, (V i).det ≠ 0) → (bd e W)⁻¹ * bd e W0 + (bd e V)⁻¹ * bd e V0 =
      bd e fun i => (W i)⁻¹ * W0 i + (V i)⁻¹ * V0 i := fun h1 h2 => by
    rw [bd_inv e h1, bd_inv e h2, bd_add, bd_mul, bd_mul]
  have hB : (∀ i, (W i).det ≠ 0) → (∀ i, (V i).det ≠ 0) → (bd e W)⁻¹ * bd e W0 - (bd e V)⁻¹ * bd e V0 =
      bd e fun i => (W i)⁻¹ * W0 i - (V i)⁻¹ * V0 i := fun h1 h2 => by
    rw [bd_inv e h1, bd_inv e h2, bd_sub, bd_mul, bd_mul]
  constructor
  · rintro ⟨A, B, X, T, rfl, rfl, rfl, rfl, h1, h2, h3, h4, s1, s2, s3, s4⟩
    rw [bd_det_ne] at h1 h2
    rw [hA h1 h2] at h3 h4 s1 s2
    rw [hB h1 h2] at h4 s1 s2
    rw [bd_det_ne] at h3
    simp only [bd_inv e h3, ← bd_mul, ← bd_sub] at h4 s1 s2
    rw [bd_det_ne] at h4
    simp only [bd_inv e h4, ← bd_mul] at s1 s2
    obtain ⟨R1, R2, R3, R4⟩ := R
    simp only at s1 s2 s3 s4
    subst s3 s4 s1 s2
    exact ⟨fun i => ⟨_, _, _, _⟩, rfl, fun i => ⟨_, _, _, _, rfl, rfl, rfl, rfl, h1 i, h2 i, h3 i, h4 i,
      rfl, rfl, rfl, rfl⟩⟩
  · rintro ⟨C, rfl, h⟩
    choose A B X T eA eB eX eT h1 h2 h3 h4 s1 s2 s3 s4 using h
    have eA' := funext eA
    have eB' := funext eB
    have eX' := funext eX
    have eT' := funext eT
    refine ⟨_, _, _, _, rfl, rfl, rfl, rfl, (bd_det_ne e).2 h1, (bd_det_ne e).2 h2, ?_⟩
    rw [hA h1 h2, hB h1 h2]
    rw [← eA', ← eB', ← eX', bd_inv e h3]
    simp only [← bd_mul, ← bd_sub]
    rw [← eT', bd_inv e h4]
    refine ⟨(bd_det_ne e).2 h3, (bd_det_ne e).2 h4, ?_⟩
    simp only [← bd_mul, bdS, s1, s2, s3, s4, and_self]

end Khepri
