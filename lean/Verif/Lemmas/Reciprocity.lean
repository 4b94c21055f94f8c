import Verif.Spec.Reciprocity
import Verif.Lemmas.SymmetryForms

set_option linter.unusedSectionVars false

namespace Khepri

open Matrix

section
variable {n : Type} [Fintype n] [DecidableEq n]

/-- The bilinear form `E' · Ω H + H' · Ω E`. -/
def pairing (Om : Matrix n n ℂ) (F' F : Tang n) : ℂ := F'.E ⬝ᵥ Om *ᵥ F.H + F'.H ⬝ᵥ Om *ᵥ F.E

theorem pairing_eq (Om : Matrix n n ℂ) (F' F : Tang n) :
    pairing Om F' F = Sum.elim F'.E F'.H ⬝ᵥ fromBlocks 0 Om Om 0 *ᵥ Sum.elim F.E F.H := by
  rw [fromBlocks_mulVec]
  simp [pairing, dotProduct, Fintype.sum_sum_type]

theorem transfer_pairing {P Q P' Q' Om : Matrix n n ℂ} {t : ℝ} (hO : IsUnit Om)
    (hP : P'ᵀ * Om = -(Om * P)) (hQ : Q'ᵀ * Om = -(Om * Q)) {F G F' G' : Tang n}
    (h : MaxwellTransfer P Q t F G) (h' : MaxwellTransfer P' Q' t F' G') :
    pairing Om G' G = pairing Om F' F := by
  unfold MaxwellTransfer at h h'
  set A := (t : ℂ) • fromBlocks 0 P Q 0 with hA
  set A' := (t : ℂ) • fromBlocks 0 P' Q' 0 with hA'
  have hU : IsUnit (fromBlocks 0 Om Om 0 : Matrix (n ⊕ n) (n ⊕ n) ℂ) := by
    have hd : IsUnit Om.det := (Matrix.isUnit_iff_isUnit_det Om).1 hO
    rw [Matrix.isUnit_iff_isUnit_det]
    refine IsUnit.of_mul_eq_one (fromBlocks 0 Om⁻¹ Om⁻¹ 0 : Matrix (n ⊕ n) (n ⊕ n) ℂ).det ?_
    rw [← det_mul, fromBlocks_multiply]
    simp [Matrix.mul_nonsing_inv _ hd]
  have hi : A'ᵀ * fromBlocks 0 Om Om 0 = fromBlocks 0 Om Om 0 * (-A) := by
    rw [hA, hA', transpose_smul, Matrix.smul_mul, Matrix.mul_neg, Matrix.mul_smul, fromBlocks_transpose,
      fromBlocks_multiply, fromBlocks_multiply, ← smul_neg, fromBlocks_neg]
    simp [hP, hQ]
  have hx := exp_intertwine hU hi
  rw [Matrix.exp_transpose] at hx
  have hinv : NormedSpace.exp (-A) * NormedSpace.exp A = 1 := by
    rw [← Matrix.exp_add_of_commute _ _ ((Commute.refl A).neg_left), neg_add_cancel, NormedSpace.exp_zero]
  have adj : ∀ (M : Matrix (n ⊕ n) (n ⊕ n) ℂ) (v w : n ⊕ n → ℂ), M *ᵥ v ⬝ᵥ w = v ⬝ᵥ Mᵀ *ᵥ w := by
    intro M v w
    rw [dotProduct_mulVec, vecMul_transpose]
  rw [pairing_eq, pairing_eq, h, h', adj, mulVec_mulVec, mulVec_mulVec, hx, Matrix.mul_assoc,
    hinv, Matrix.mul_one]

theorem chain_pairing {Om : Matrix n n ℂ} (hO : IsUnit Om)
    {Ms Ms' : List (Matrix n n ℂ × Matrix n n ℂ × ℝ)}
    (h : List.Forall₂ (fun M M' => M'.1ᵀ * Om = -(Om * M.1) ∧ M'.2.1ᵀ * Om = -(Om * M.2.1) ∧ M'.2.2 = M.2.2) Ms Ms')
    {F G F' G' : Tang n} (hc : MaxwellChain Ms F G) (hc' : MaxwellChain Ms' F' G') :
    pairing Om G' G = pairing Om F' F := by
  induction h generalizing F F' with
  | nil => rw [show F = G from hc, show F' = G' from hc']
  | cons hM _ ih =>
    obtain ⟨K, h1, h2⟩ := hc
    obtain ⟨K', h1', h2'⟩ := hc'
    rw [ih h2 h2']
    rw [hM.2.2] at h1'
    exact transfer_pairing hO hM.1 hM.2.1 h1 h1'

theorem transfer_flip {P Q : Matrix n n ℂ} {t : ℝ} {F G : Tang n} (h : MaxwellTransfer P Q t F G) :
    MaxwellTransfer P Q t G.flip F.flip := by
  unfold MaxwellTransfer at *
  set A := (t : ℂ) • fromBlocks 0 P Q 0 with hA
  set J : Matrix (n ⊕ n) (n ⊕ n) ℂ := fromBlocks 1 0 0 (-1) with hJ
  have hJJ : J * J = 1 := by rw [hJ, fromBlocks_multiply]; simp
  have hJu : IsUnit J := by
    rw [Matrix.isUnit_iff_isUnit_det]
    exact IsUnit.of_mul_eq_one J.det (by rw [← det_mul, hJJ, det_one])
  have hi : A * J = J * (-A) := by
    rw [hA, hJ, Matrix.smul_mul, Matrix.mul_neg, Matrix.mul_smul, fromBlocks_multiply, fromBlocks_multiply,
      ← smul_neg, fromBlocks_neg]
    simp
  have hx := exp_intertwine hJu hi
  have hinv : NormedSpace.exp (-A) * NormedSpace.exp A = 1 := by
    rw [← Matrix.exp_add_of_commute _ _ ((Commute.refl A).neg_left), neg_add_cancel, NormedSpace.exp_zero]
  have e : ∀ F : Tang n, Sum.elim F.flip.E F.flip.H = J *ᵥ Sum.elim F.E F.H := by
    intro F
    rw [hJ, fromBlocks_mulVec]
    simp [Tang.flip, neg_mulVec]
  rw [e, e, h, mulVec_mulVec, mulVec_mulVec, hx, Matrix.mul_assoc, hinv, Matrix.mul_one]

theorem maxwellChain_append {l l' : List (Matrix n n ℂ × Matrix n n ℂ × ℝ)} {F G : Tang n} :
    MaxwellChain (l ++ l') F G ↔ ∃ K, MaxwellChain l F K ∧ MaxwellChain l' K G := by
  induction l generalizing F with
  | nil => simp [MaxwellChain]
  | cons M l ih =>
    simp only [List.cons_append, MaxwellChain, ih]
    constructor
    · rintro ⟨K, h1, K', h2, h3⟩; exact ⟨K', ⟨K, h1, h2⟩, h3⟩
    · rintro ⟨K', ⟨K, h1, h2⟩, h3⟩; exact ⟨K, h1, K', h2, h3⟩

theorem chain_flip {l : List (Matrix n n ℂ × Matrix n n ℂ × ℝ)} {F G : Tang n} (h : MaxwellChain l F G) :
    MaxwellChain l.reverse G.flip F.flip := by
  induction l generalizing F with
  | nil => exact congrArg _ (Eq.symm h)
  | cons M l ih =>
    obtain ⟨K, h1, h2⟩ := h
    rw [List.reverse_cons, maxwellChain_append]
    exact ⟨K.flip, ih h2, F.flip, transfer_flip h1, rfl⟩

end

section
variable {N : ℕ}

/-- Pairs of opposite orders. -/
def revMat (N : ℕ) : Matrix (Fin N) (Fin N) ℂ := Matrix.of fun i j => if j = i.rev then 1 else 0

theorem mul_revMat (A : Matrix (Fin N) (Fin N) ℂ) (i j : Fin N) : (A * revMat N) i j = A i j.rev := by
  rw [Matrix.mul_apply, Finset.sum_eq_single j.rev]
  · simp [revMat]
  · intro b _ hb
    have : j ≠ b.rev := fun h => hb (by rw [h, Fin.rev_rev])
    simp [revMat, this]
  · simp

theorem revMat_mul (A : Matrix (Fin N) (Fin N) ℂ) (i j : Fin N) : (revMat N * A) i j = A i.rev j := by
  rw [Matrix.mul_apply, Finset.sum_eq_single i.rev]
  · simp [revMat]
  · intro b _ hb
    simp [revMat, hb]
  · simp

/-- The matrix of Lorentz's form. -/
def lorentzMat (N : ℕ) : Mat2 N := fromBlocks 0 (revMat N) (-revMat N) 0

theorem revMat_sq : revMat N * revMat N = 1 := by
  ext i j
  rw [revMat_mul]
  simp only [revMat, Matrix.of_apply, Fin.rev_rev, Matrix.one_apply, eq_comm]

theorem lorentzMat_unit : IsUnit (lorentzMat N) := by
  rw [Matrix.isUnit_iff_isUnit_det]
  refine IsUnit.of_mul_eq_one (-lorentzMat N).det ?_
  rw [← det_mul, lorentzMat, fromBlocks_neg, fromBlocks_multiply]
  simp [revMat_sq]

theorem lorentz_eq (F' F : Tang (Fin N ⊕ Fin N)) : lorentz F' F = pairing (lorentzMat N) F' F := by
  have hr : ∀ (v : Fin N → ℂ) (i : Fin N), (revMat N *ᵥ v) i = v i.rev := by
    intro v i
    simp only [mulVec, dotProduct, revMat, Matrix.of_apply]
    rw [Finset.sum_eq_single i.rev] <;> simp +contextual
  have hm : ∀ v : Vec2 N, lorentzMat N *ᵥ v =
      Sum.elim (fun i => v (.inr i.rev)) (fun i => -v (.inl i.rev)) := by
    intro v
    have : v = Sum.elim (v ∘ Sum.inl) (v ∘ Sum.inr) := by funext i; cases i <;> rfl
    conv_lhs => rw [this]
    rw [lorentzMat, fromBlocks_mulVec]
    funext i
    cases i with
    | inl i => simp [hr]
    | inr i => simp [hr, neg_mulVec]
  have hrev : ∀ f : Fin N → ℂ, ∑ i, f i = ∑ i : Fin N, f i.rev := fun f => (Equiv.sum_comp Fin.revPerm f).symm
  rw [pairing, hm, hm, lorentz]
  simp only [dotProduct, Fintype.sum_sum_type, Sum.elim_inl, Sum.elim_inr]
  rw [hrev (fun i => F'.E (.inl i) * F.H (.inr i.rev)), hrev (fun i => F'.E (.inr i) * -F.H (.inl i.rev)),
    hrev (fun i => F'.H (.inl i) * F.E (.inr i.rev)), hrev (fun i => F'.H (.inr i) * -F.E (.inl i.rev)),
    ← Finset.sum_add_distrib, ← Finset.sum_add_distrib, ← Finset.sum_add_distrib]
  refine Finset.sum_congr rfl fun i _ => ?_
  simp only [Fin.rev_rev]
  ring

theorem curl_lorentz {kx ky kx' ky' : Fin N → ℂ} {K M K' M' : Matrix (Fin N) (Fin N) ℂ}
    (hx : ∀ i, kx' i.rev = -kx i) (hy : ∀ i, ky' i.rev = -ky i)
    (hK : ∀ i j : Fin N, K' i.rev j.rev = K j i) (hM : ∀ i j : Fin N, M' i.rev j.rev = M j i) :
    (curlBlock kx' ky' K' M')ᵀ * lorentzMat N = -(lorentzMat N * curlBlock kx ky K M) := by
  have hx' : ∀ i, kx' i = -kx i.rev := fun i => by rw [← hx, Fin.rev_rev]
  have hy' : ∀ i, ky' i = -ky i.rev := fun i => by rw [← hy, Fin.rev_rev]
  have hK' : ∀ i j : Fin N, K' i.rev j = K j.rev i := fun i j => by rw [← hK, Fin.rev_rev]
  have hM' : ∀ i j : Fin N, M' i.rev j = M j.rev i := fun i j => by rw [← hM, Fin.rev_rev]
  simp only [curlBlock, lorentzMat, fromBlocks_transpose, fromBlocks_multiply, fromBlocks_neg]
  congr 1 <;>
  · ext i j
    simp only [Matrix.mul_zero, Matrix.zero_mul, Matrix.mul_neg, Matrix.neg_mul, Matrix.add_apply, Matrix.zero_apply,
      Matrix.neg_apply, mul_revMat, revMat_mul, transpose_apply, Matrix.sub_apply, diagonal_mul, mul_diagonal,
      hx, hy, hx', hy', hK', hM']
    ring

theorem rev_diff {P Q : ℕ} (hN : P * Q = N) (i j : Fin N) :
    diffAt P (i.rev : ℕ) (j.rev : ℕ) = diffAt P j i := by
  have hi := i.2
  have hj := j.2
  rw [Fin.val_rev, Fin.val_rev]
  by_cases hP : P = 0
  · rw [hP, zero_mul] at hN; omega
  have key : ∀ g, g < N → (N - (g + 1)) % P = P - 1 - g % P ∧ (N - (g + 1)) / P = Q - 1 - g / P := by
    intro g hg
    have hr := Nat.mod_lt g (Nat.pos_of_ne_zero hP)
    have hq : g / P < Q := Nat.div_lt_of_lt_mul (by rw [hN]; exact hg)
    have h3 := Nat.div_add_mod g P
    have : N - (g + 1) = P * (Q - 1 - g / P) + (P - 1 - g % P) := by
      obtain ⟨q, hq'⟩ : ∃ q, Q = q + 1 + g / P := ⟨Q - 1 - g / P, by omega⟩
      have h4 : Q - 1 - g / P = q := by omega
      have h5 : N = P * q + P + P * (g / P) := by rw [← hN, hq']; ring
      rw [h4]
      omega
    rw [this, Nat.mul_add_mod, Nat.mod_eq_of_lt (by omega), Nat.mul_add_div (Nat.pos_of_ne_zero hP),
      Nat.div_eq_of_lt (by omega : P - 1 - g % P < P)]
    exact ⟨rfl, by omega⟩
  obtain ⟨a1, a2⟩ := key i hi
  obtain ⟨b1, b2⟩ := key j hj
  have r1 := Nat.mod_lt (i : ℕ) (Nat.pos_of_ne_zero hP)
  have r2 := Nat.mod_lt (j : ℕ) (Nat.pos_of_ne_zero hP)
  have q1 : (i : ℕ) / P < Q := Nat.div_lt_of_lt_mul (by rw [hN]; exact hi)
  have q2 : (j : ℕ) / P < Q := Nat.div_lt_of_lt_mul (by rw [hN]; exact hj)
  simp only [diffAt, a1, a2, b1, b2, Prod.mk.injEq]
  omega

theorem permittivity_opposite {jv1 : ℝ → ℝ} {e : Expansion N} {f : Form} {C : Matrix (Fin N) (Fin N) ℂ}
    (h : Permittivity jv1 e f C) (i j : Fin N) : C i.rev j.rev = C j i := by
  have hd := rev_diff e.hpw i j
  cases f with
  | uniform eps =>
    rw [show C = eps • 1 from h]
    simp [Matrix.one_apply, Fin.rev_inj, eq_comm]
  | fft a =>
    simp only [Permittivity] at h
    rw [h, h]
    simp only [diffAt, Prod.mk.injEq] at hd
    simp only [← Int.natCast_mod, ← Int.natCast_ediv]
    rw [hd.1, hd.2]
  | analytical islands host =>
    by_cases hN : N = 0
    · subst hN; exact i.elim0
    have h0 : e.pw.1 ≠ 0 ∧ e.pw.2 ≠ 0 := by
      have := e.hpw
      constructor <;> intro h0 <;> rw [h0] at this <;> simp at this <;> omega
    obtain ⟨-, -, -, rfl⟩ := analyticalC_eq_ok h h0
    simp only [Matrix.of_apply, tablePos, hd]
  | halfInc => exact absurd h (by simp [Permittivity])
  | halfTrn => exact absurd h (by simp [Permittivity])

theorem inv_opposite {C : Matrix (Fin N) (Fin N) ℂ} (h : ∀ i j : Fin N, C i.rev j.rev = C j i)
    (i j : Fin N) : C⁻¹ i.rev j.rev = C⁻¹ j i := by
  have e : revMat N * C * revMat N = Cᵀ := by
    ext i j
    rw [mul_revMat, revMat_mul, h, transpose_apply]
  have e2 : revMat N * C⁻¹ * revMat N = C⁻¹ᵀ := by
    rw [transpose_nonsing_inv, ← e, Matrix.mul_inv_rev, Matrix.mul_inv_rev, Matrix.mul_assoc]
    have : (revMat N)⁻¹ = revMat N := Matrix.inv_eq_right_inv revMat_sq
    rw [this]
  have := congrFun (congrFun e2 i) j
  rwa [mul_revMat, revMat_mul, transpose_apply] at this

/-! ### Waves of the outer media -/

/-- Matrix from the waves of a uniform medium to their magnetic field. -/
noncomputable def outerV (kx ky : Fin N → ℝ) (er : ℝ) : Mat2 N :=
  maxwellQ (fun i => (kx i : ℂ)) (fun i => (ky i : ℂ)) ((er : ℂ) • 1) *
    diagonal (fun j => (Complex.I * outerKz (er - kx (j.elim id id) ^ 2 - ky (j.elim id id) ^ 2))⁻¹)

theorem outerField_eq (kx ky : Fin N → ℝ) (er : ℝ) (p : Port (Fin N ⊕ Fin N)) :
    outerField kx ky er p = ⟨p.fwd + p.bwd, outerV kx ky er *ᵥ (p.bwd - p.fwd)⟩ := by
  unfold outerField outerV
  congr 1
  rw [← mulVec_mulVec]
  congr 1
  funext j
  rw [mulVec_diagonal, Pi.sub_apply, div_eq_mul_inv, mul_comm]

theorem outerField_flip (kx ky : Fin N → ℝ) (er : ℝ) (p : Port (Fin N ⊕ Fin N)) :
    outerField kx ky er p.flip = (outerField kx ky er p).flip := by
  rw [outerField_eq, outerField_eq]
  simp only [Port.flip, Tang.flip, Tang.mk.injEq]
  exact ⟨add_comm _ _, by rw [← mulVec_neg, neg_sub]⟩

theorem outerV_lorentz {kx ky kx' ky' : Fin N → ℝ} (er : ℝ)
    (hx : ∀ i, kx' i.rev = -kx i) (hy : ∀ i, ky' i.rev = -ky i) :
    (outerV kx' ky' er)ᵀ * lorentzMat N = -(lorentzMat N * outerV kx ky er) := by
  have h := curl_lorentz (kx := fun i => (kx i : ℂ)) (ky := fun i => (ky i : ℂ)) (kx' := fun i => (kx' i : ℂ))
    (ky' := fun i => (ky' i : ℂ)) (K := 1) (M := (er : ℂ) • 1) (K' := 1) (M' := (er : ℂ) • 1)
    (by intro i; rw [hx]; push_cast; rfl) (by intro i; rw [hy]; push_cast; rfl)
    (by intro i j; simp [Matrix.one_apply, Fin.rev_inj, eq_comm])
    (by intro i j; simp [Matrix.one_apply, Fin.rev_inj, eq_comm])
  have hx' : ∀ i, kx' i = -kx i.rev := fun i => by rw [← hx, Fin.rev_rev]
  have hy' : ∀ i, ky' i = -ky i.rev := fun i => by rw [← hy, Fin.rev_rev]
  set d : Fin N → ℂ := fun i => (Complex.I * outerKz (er - kx i ^ 2 - ky i ^ 2))⁻¹ with hd
  have e1 : outerV kx ky er = curlBlock (fun i => (kx i : ℂ)) (fun i => (ky i : ℂ)) 1 ((er : ℂ) • 1) * phaseMat d := by
    rw [outerV, maxwellQ_eq, phaseMat]
    congr 2
    funext j
    cases j <;> rfl
  have e2 : outerV kx' ky' er = curlBlock (fun i => (kx' i : ℂ)) (fun i => (ky' i : ℂ)) 1 ((er : ℂ) • 1) *
      phaseMat (fun i => d i.rev) := by
    rw [outerV, maxwellQ_eq, phaseMat]
    congr 2
    funext j
    cases j <;> simp [hd, hx', hy']
  have e3 : phaseMat (fun i => d i.rev) * lorentzMat N = lorentzMat N * phaseMat d := by
    simp only [phaseMat_blocks, lorentzMat, fromBlocks_multiply]
    congr 1 <;>
    · ext i j
      simp only [Matrix.mul_zero, Matrix.zero_mul, Matrix.mul_neg, Matrix.neg_mul, Matrix.add_apply, Matrix.zero_apply,
        Matrix.neg_apply, mul_revMat, revMat_mul, diagonal_apply]
      try (
        by_cases hij : j = i.rev
        · subst hij; simp
        · have : ¬ i.rev = j := fun h => hij h.symm
          have h2 : ¬ i = j.rev := fun h => hij (by rw [h, Fin.rev_rev])
          simp [this, h2])
  have e4 : ∀ (e : ℂ) (i j : Fin N), (e • (1 : Matrix (Fin N) (Fin N) ℂ)) i j * d j =
      d i * (e • (1 : Matrix (Fin N) (Fin N) ℂ)) i j := by
    intro e i j
    by_cases hij : i = j
    · subst hij; rw [mul_comm]
    · simp [Matrix.one_apply_ne hij]
  have e5 := phase_block (kx := kx) (ky := ky) (d := d) (K := 1) (K' := 1) (M := (er : ℂ) • 1) (M' := (er : ℂ) • 1)
    (by simpa using e4 1) (e4 er)
  have e6 : (phaseMat (fun i => d i.rev))ᵀ = phaseMat (fun i => d i.rev) := diagonal_transpose _
  rw [e2, transpose_mul, e6, Matrix.mul_assoc, h, e1, Matrix.mul_neg, ← Matrix.mul_assoc, e3, Matrix.mul_assoc, e5]

theorem lorentz_outer {kx ky kx' ky' : Fin N → ℝ} (er : ℝ)
    (hx : ∀ i, kx' i.rev = -kx i) (hy : ∀ i, ky' i.rev = -ky i) (p' p : Port (Fin N ⊕ Fin N)) :
    lorentz (outerField kx' ky' er p') (outerField kx ky er p) =
      2 * (p'.fwd ⬝ᵥ (lorentzMat N * outerV kx ky er) *ᵥ p.bwd - p'.bwd ⬝ᵥ (lorentzMat N * outerV kx ky er) *ᵥ p.fwd) := by
  have h := outerV_lorentz er hx hy
  rw [lorentz_eq, outerField_eq, outerField_eq, pairing]
  simp only
  have adj : ∀ (M : Mat2 N) (v w : Vec2 N), M *ᵥ v ⬝ᵥ w = v ⬝ᵥ Mᵀ *ᵥ w := by
    intro M v w
    rw [dotProduct_mulVec, vecMul_transpose]
  rw [adj, mulVec_mulVec, mulVec_mulVec, h, neg_mulVec]
  simp only [mulVec_sub, mulVec_add, dotProduct_sub, dotProduct_add, add_dotProduct, sub_dotProduct, dotProduct_neg]
  ring

/-- Bilinear form of the flux of a wave with tangential field `x`, for in-plane wave vector `(a, b)` and normal wave
number `z`. -/
noncomputable def waveDot (a b z : ℂ) (x y : ℂ × ℂ) : ℂ :=
  x.1 * y.1 + x.2 * y.2 + (a * x.1 + b * x.2) * (a * y.1 + b * y.2) / z ^ 2

theorem waveDot_comm (a b z : ℂ) (x y : ℂ × ℂ) : waveDot a b z x y = waveDot a b z y x := by
  simp only [waveDot]; ring

theorem waveDot_neg (a b z : ℂ) (x y : ℂ × ℂ) : waveDot (-a) (-b) z x y = waveDot a b z x y := by
  simp only [waveDot]; ring

theorem lorentzV_sum {kx ky : Fin N → ℝ} {er : ℝ} (x y : Vec2 N) :
    x ⬝ᵥ (lorentzMat N * outerV kx ky er) *ᵥ y =
      ∑ i : Fin N, ((x (.inl i.rev) * ((ky i ^ 2 - er) * y (.inl i) - ky i * kx i * y (.inr i)) -
        x (.inr i.rev) * (kx i * ky i * y (.inl i) + (er - kx i ^ 2) * y (.inr i))) /
          (Complex.I * outerKz (er - kx i ^ 2 - ky i ^ 2))) := by
  have hV : ∀ i, (outerV kx ky er *ᵥ y) (.inl i) = (kx i * ky i * y (.inl i) + (er - kx i ^ 2) * y (.inr i)) /
        (Complex.I * outerKz (er - kx i ^ 2 - ky i ^ 2)) ∧
      (outerV kx ky er *ᵥ y) (.inr i) = ((ky i ^ 2 - er) * y (.inl i) - ky i * kx i * y (.inr i)) /
        (Complex.I * outerKz (er - kx i ^ 2 - ky i ^ 2)) := by
    intro i
    rw [outerV, ← mulVec_mulVec]
    set w := diagonal (fun j : Fin N ⊕ Fin N => (Complex.I * outerKz (er - kx (j.elim id id) ^ 2 - ky (j.elim id id) ^ 2))⁻¹) *ᵥ y
    have hw1 : w (.inl i) = (Complex.I * outerKz (er - kx i ^ 2 - ky i ^ 2))⁻¹ * y (.inl i) := by
      simp only [w, mulVec_diagonal]; rfl
    have hw2 : w (.inr i) = (Complex.I * outerKz (er - kx i ^ 2 - ky i ^ 2))⁻¹ * y (.inr i) := by
      simp only [w, mulVec_diagonal]; rfl
    have : w = Sum.elim (w ∘ Sum.inl) (w ∘ Sum.inr) := by funext i; cases i <;> rfl
    rw [this, maxwellQ, fromBlocks_mulVec]
    simp only [diagonal_mul_diagonal, sub_mulVec, neg_mulVec, smul_mulVec, one_mulVec, Sum.elim_inl, Sum.elim_inr,
      Pi.add_apply, Pi.sub_apply, Pi.neg_apply, Pi.smul_apply, mulVec_diagonal, Function.comp, hw1, hw2, smul_eq_mul]
    constructor <;> ring
  have := lorentz_eq (N := N) ⟨x, 0⟩ ⟨0, outerV kx ky er *ᵥ y⟩
  rw [pairing] at this
  simp only [zero_dotProduct, add_zero] at this
  rw [mulVec_mulVec] at this
  rw [← this, lorentz]
  refine Finset.sum_congr rfl fun i _ => ?_
  simp only [(hV i).1, (hV i).2, Pi.zero_apply]
  ring

theorem lorentzV_spec {kx ky : Fin N → ℝ} {er : ℝ} {i0 : Fin N} (hi : i0.rev = i0)
    (hpos : 0 < er - kx i0 ^ 2 - ky i0 ^ 2) (x y : Vec2 N)
    (hs : (∀ i, i ≠ i0 → x (.inl i) = 0 ∧ x (.inr i) = 0) ∨ (∀ i, i ≠ i0 → y (.inl i) = 0 ∧ y (.inr i) = 0)) :
    x ⬝ᵥ (lorentzMat N * outerV kx ky er) *ᵥ y = Complex.I * Real.sqrt (er - kx i0 ^ 2 - ky i0 ^ 2) *
      waveDot (kx i0) (ky i0) (Real.sqrt (er - kx i0 ^ 2 - ky i0 ^ 2)) (x (.inl i0), x (.inr i0))
        (y (.inl i0), y (.inr i0)) := by
  rw [lorentzV_sum, Finset.sum_eq_single i0]
  · rw [hi, outerKz_pos hpos, waveDot]
    have h2 := Real.sq_sqrt hpos.le
    have h0 : (Real.sqrt (er - kx i0 ^ 2 - ky i0 ^ 2) : ℂ) ≠ 0 := by
      exact_mod_cast (Real.sqrt_pos.2 hpos).ne'
    set z := Real.sqrt (er - kx i0 ^ 2 - ky i0 ^ 2)
    have h3 : (z : ℂ) ^ 2 = er - kx i0 ^ 2 - ky i0 ^ 2 := by exact_mod_cast h2
    have h4 : (er : ℂ) = z ^ 2 + kx i0 ^ 2 + ky i0 ^ 2 := by rw [h3]; ring
    rw [h4]
    field_simp
    rw [Complex.I_sq]
    ring
  · intro b _ hb
    rcases hs with hs | hs
    · have hb' : b.rev ≠ i0 := fun h => hb (by rw [← Fin.rev_rev b, h, hi])
      rw [(hs _ hb').1, (hs _ hb').2]
      simp
    · rw [(hs _ hb).1, (hs _ hb).2]
      simp
  · simp

/-! ### Unpolarised light -/

/-- The amplitudes of order `i`. -/
def orderOf (v : Vec2 N) (i : Fin N) : ℂ × ℂ := (v (.inl i), v (.inr i))

theorem parseval_normal (z : ℂ) (v : ℂ × ℂ) :
    ‖v.1‖ ^ 2 + ‖v.2‖ ^ 2 + ‖-(((0 : ℝ) : ℂ) * v.1 + ((0 : ℝ) : ℂ) * v.2) / z‖ ^ 2 =
      ‖waveDot ((0 : ℝ) : ℂ) ((0 : ℝ) : ℂ) z (1, 0) v‖ ^ 2 + ‖waveDot ((0 : ℝ) : ℂ) ((0 : ℝ) : ℂ) z (0, 1) v‖ ^ 2 := by
  simp [waveDot]

theorem parseval_oblique {x y z t K : ℝ} (hz : 0 < z) (ht : 0 < t) (hK : 0 < K) (ht2 : t ^ 2 = x ^ 2 + y ^ 2)
    (hK2 : K ^ 2 = z ^ 2 + t ^ 2) (v : ℂ × ℂ) :
    ‖v.1‖ ^ 2 + ‖v.2‖ ^ 2 + ‖-((x : ℂ) * v.1 + (y : ℂ) * v.2) / (z : ℂ)‖ ^ 2 =
      ‖waveDot x y z (((-y / t : ℝ) : ℂ), ((x / t : ℝ) : ℂ)) v‖ ^ 2 +
        ‖waveDot x y z (((x * z / (t * K) : ℝ) : ℂ), ((y * z / (t * K) : ℝ) : ℂ)) v‖ ^ 2 := by
  have e1 : waveDot x y z (((-y / t : ℝ) : ℂ), ((x / t : ℝ) : ℂ)) v = ((1 / t : ℝ) : ℂ) * ((x : ℂ) * v.2 - y * v.1) := by
    simp only [waveDot, Complex.ofReal_div, Complex.ofReal_neg, Complex.ofReal_one]
    ring
  have hzc : (z : ℂ) ≠ 0 := by exact_mod_cast hz.ne'
  have htc : (t : ℂ) ≠ 0 := by exact_mod_cast ht.ne'
  have hKc : (K : ℂ) ≠ 0 := by exact_mod_cast hK.ne'
  have ht2c : (t : ℂ) ^ 2 = x ^ 2 + y ^ 2 := by exact_mod_cast ht2
  have hK2c : (K : ℂ) ^ 2 = z ^ 2 + t ^ 2 := by exact_mod_cast hK2
  have e2 : waveDot x y z (((x * z / (t * K) : ℝ) : ℂ), ((y * z / (t * K) : ℝ) : ℂ)) v =
      ((K / (t * z) : ℝ) : ℂ) * ((x : ℂ) * v.1 + y * v.2) := by
    simp only [waveDot, Complex.ofReal_div, Complex.ofReal_mul]
    field_simp
    linear_combination ((x : ℂ) * v.1 + y * v.2) * (-ht2c - hK2c)
  have e3 : -((x : ℂ) * v.1 + (y : ℂ) * v.2) / (z : ℂ) = ((-1 / z : ℝ) : ℂ) * ((x : ℂ) * v.1 + y * v.2) := by
    simp only [Complex.ofReal_div, Complex.ofReal_neg, Complex.ofReal_one]
    ring
  rw [e1, e2, e3]
  simp only [norm_mul, mul_pow, Complex.norm_real, Real.norm_eq_abs, sq_abs]
  have hl : ‖(x : ℂ) * v.2 - y * v.1‖ ^ 2 + ‖(x : ℂ) * v.1 + y * v.2‖ ^ 2 = t ^ 2 * (‖v.1‖ ^ 2 + ‖v.2‖ ^ 2) := by
    rw [ht2]
    simp only [normSq_re_im, Complex.sub_re, Complex.sub_im, Complex.add_re, Complex.add_im, Complex.mul_re,
      Complex.mul_im, Complex.ofReal_re, Complex.ofReal_im, zero_mul, sub_zero, add_zero]
    ring
  have h4 : ‖v.1‖ ^ 2 + ‖v.2‖ ^ 2 = (‖(x : ℂ) * v.2 - y * v.1‖ ^ 2 + ‖(x : ℂ) * v.1 + y * v.2‖ ^ 2) / t ^ 2 := by
    rw [hl]; field_simp
  rw [h4]
  generalize ‖(x : ℂ) * v.2 - y * v.1‖ ^ 2 = A
  generalize ‖(x : ℂ) * v.1 + y * v.2‖ ^ 2 = B
  field_simp
  linear_combination -B * hK2

/-- Squared length of the electric field of a wave with tangential field `v`, for in-plane wave vector `(x, y)` and
normal wave number `z`. -/
noncomputable def waveSize (x y z : ℂ) (v : ℂ × ℂ) : ℝ := ‖v.1‖ ^ 2 + ‖v.2‖ ^ 2 + ‖-(x * v.1 + y * v.2) / z‖ ^ 2

theorem waveSize_neg (x y z : ℂ) (v : ℂ × ℂ) : waveSize (-x) (-y) z v = waveSize x y z v := by
  unfold waveSize
  rw [show -(-x * v.1 + -y * v.2) / z = -(-(x * v.1 + y * v.2) / z) by ring, norm_neg]

theorem waveNorm_order (kx ky : Fin N → ℝ) (kz : Fin N → ℂ) (v : Vec2 N) (i : Fin N) :
    waveNorm kx ky kz v i = waveSize (kx i) (ky i) (kz i) (orderOf v i) := rfl

/-- The two polarisations offered by the library resolve every wave of the specular order; sources of opposite in-plane
wave vectors use the same fields up to a common sign. -/
theorem specular_basis {a b k0 er : ℝ} (hk0 : 0 < k0) (hpos : 0 < er - (a / k0) ^ 2 - (b / k0) ^ 2)
    (hab : (a = 0 ∧ b = 0) ∨ (1 / 10 ^ 8) ^ 2 ≤ a ^ 2 + b ^ 2) {i0 : Fin N} (hi : (i0 : ℕ) = (N - 1) / 2)
    {inc1 inc2 : Vec2 N}
    (h1 : incident N 1 0 ⟨a, b, star (csqrt (((k0 : ℝ) : ℂ) ^ 2 * er - (a : ℂ) ^ 2 - (b : ℂ) ^ 2))⟩ = .ok inc1)
    (h2 : incident N 0 1 ⟨a, b, star (csqrt (((k0 : ℝ) : ℂ) ^ 2 * er - (a : ℂ) ^ 2 - (b : ℂ) ^ 2))⟩ = .ok inc2) :
    (∀ i, i ≠ i0 → inc1 (.inl i) = 0 ∧ inc1 (.inr i) = 0) ∧ (∀ i, i ≠ i0 → inc2 (.inl i) = 0 ∧ inc2 (.inr i) = 0) ∧
    ∀ v : ℂ × ℂ, waveSize (a / k0 : ℝ) (b / k0 : ℝ) (Real.sqrt (er - (a / k0) ^ 2 - (b / k0) ^ 2)) v =
      ‖waveDot (a / k0 : ℝ) (b / k0 : ℝ) (Real.sqrt (er - (a / k0) ^ 2 - (b / k0) ^ 2)) (orderOf inc1 i0) v‖ ^ 2 +
        ‖waveDot (a / k0 : ℝ) (b / k0 : ℝ) (Real.sqrt (er - (a / k0) ^ 2 - (b / k0) ^ 2)) (orderOf inc2 i0) v‖ ^ 2 := by
  have p1 : polNorm 1 0 = 1 := by simp [polNorm]
  have p2 : polNorm 0 1 = 1 := by simp [polNorm]
  have d1 := incident_direction hk0 hpos h1 hab
  have d2 := incident_direction hk0 hpos h2 hab
  simp only [p1, p2] at d1 d2
  have hsupp : ∀ i, i ≠ i0 → ¬ (i : ℕ) = (N - 1) / 2 := fun i h e => h (Fin.ext (by rw [e, hi]))
  generalize a / k0 = x at *
  generalize b / k0 = y at *
  rcases d1 with ⟨rfl, rfl, rfl⟩ | ⟨ht, rfl⟩
  · rcases d2 with ⟨-, -, rfl⟩ | ⟨ht, -⟩
    · refine ⟨fun i h => ?_, fun i h => ?_, fun v => ?_⟩
      · simp [hsupp i h]
      · simp [hsupp i h]
      · rw [waveSize, parseval_normal]
        simp [orderOf, hi]
    · simp at ht
  · rcases d2 with ⟨rfl, rfl, -⟩ | ⟨-, rfl⟩
    · simp at ht
    · refine ⟨fun i h => ?_, fun i h => ?_, fun v => ?_⟩
      · simp [hsupp i h]
      · simp [hsupp i h]
      · have hz := Real.sqrt_pos.2 hpos
        have hz2 := Real.sq_sqrt hpos.le
        have ht2 := Real.sq_sqrt (by positivity : 0 ≤ x ^ 2 + y ^ 2)
        have her : 0 < er := by nlinarith [sq_nonneg x, sq_nonneg y]
        rw [waveSize, parseval_oblique hz ht (Real.sqrt_pos.2 her) ht2 (by rw [Real.sq_sqrt her.le, hz2, ht2]; ring)]
        simp [orderOf, hi]

end

section
variable {N : ℕ}

theorem built_opposite {e : Expansion N} (h : Built e) : OppositeOrders e := by
  induction h with
  | @make tag pw lat e h =>
    obtain ⟨h1, h2, b, -, rfl⟩ := make_eq_ok.1 h
    intro i
    have := orderAt_opposite h1 h2 i.2
    simp only [Fin.val_rev]
    rw [show pw.1 * pw.2 - (i + 1) = pw.1 * pw.2 - 1 - i by omega, this]
    simp only [latticeVec, Prod.fst_neg, Prod.snd_neg, Int.cast_neg, Prod.mk.injEq]
    constructor <;> ring
  | rotate a _ ih =>
    intro i
    simp only [Expansion.rotate, ih i, rotate2, Prod.mk.injEq]
    constructor <;> ring
  | @add M tag l r se _ _ h ihl ihr =>
    intro i
    have hg := (add_eq_ok h).2.2.2.2.2
    have hM : 0 < M := by
      rcases Nat.eq_zero_or_pos M with rfl | h
      · exact absurd i.2 (by simp)
      · exact h
    have hj : (i : ℕ) % M < M := Nat.mod_lt _ hM
    have hq : (i : ℕ) / M < M := Nat.div_lt_of_lt_mul i.2
    have e1 : i = pairIdx ⟨i / M, hq⟩ ⟨i % M, hj⟩ := Fin.ext (by
      simp only [pairIdx]; exact (Nat.div_add_mod' _ _).symm)
    have e2 : i.rev = pairIdx (Fin.rev ⟨i / M, hq⟩) (Fin.rev ⟨i % M, hj⟩) := Fin.ext (by
      simp only [pairIdx, Fin.val_rev]
      have h3 := Nat.div_add_mod (i : ℕ) M
      obtain ⟨c, hc⟩ : ∃ c, M = i / M + 1 + c := ⟨M - (i / M + 1), by omega⟩
      have e4 : M - (i / M + 1) = c := by omega
      rw [e4]
      have e5 : M * M = M * (i / M) + M + M * c := by
        conv_lhs => rw [show M * M = M * (i / M + 1 + c) by rw [← hc]]
        ring
      rw [mul_comm c M]
      omega)
    rw [e2, hg, ihl, ihr]
    conv_rhs => rw [e1, hg]
    simp only [Prod.mk.injEq]
    constructor <;> ring

theorem order_opposite {e : Expansion N} (h : OppositeOrders e) (kp : R2) (wl : ℝ) (i : Fin N) :
    orderKx e (-kp.1, -kp.2) wl i.rev = -orderKx e kp wl i ∧ orderKy e (-kp.1, -kp.2) wl i.rev = -orderKy e kp wl i := by
  simp only [orderKx, orderKy, h i]
  constructor <;> ring

section
variable {lib : NumLib} {c c3 c' c3' : Crystal N} {stack stack' : List String}
  {m m' : Bool ⊕ List Bool} {Ls Ls' : List (Layer N)} {er et er' et' wl : ℝ} {te tm te' tm' : ℂ}
  {theta phi theta' phi' : ℝ} {kpo kpo' : Option (ℂ × ℂ)} {kp : R2} {st st' : Stacked (Fin N ⊕ Fin N)}

theorem layers_pairing {jv1 : ℝ → ℝ} {e : Expansion N} {k0 : ℝ} {kx ky kx' ky' : Fin N → ℝ}
    {Ls Ls' : List (Layer N)} {Ms Ms' : List (Mat2 N × Mat2 N × ℝ)}
    (hx : ∀ i, kx' i.rev = -kx i) (hy : ∀ i, ky' i.rev = -ky i)
    (h : List.Forall₂ (fun l l' => l'.form = l.form ∧ l'.depth = l.depth) Ls Ls')
    (hM : LayerEquations jv1 e kx ky k0 Ls Ms) (hM' : LayerEquations jv1 e kx' ky' k0 Ls' Ms') :
    List.Forall₂ (fun M M' => M'.1ᵀ * lorentzMat N = -(lorentzMat N * M.1) ∧
      M'.2.1ᵀ * lorentzMat N = -(lorentzMat N * M.2.1) ∧ M'.2.2 = M.2.2) Ms Ms' := by
  unfold LayerEquations at hM hM'
  induction h generalizing Ms Ms' with
  | nil => cases hM; cases hM'; exact List.Forall₂.nil
  | cons hl _ ih =>
    cases hM with
    | cons a hM =>
    cases hM' with
    | cons b hM' =>
    refine List.Forall₂.cons ?_ (ih hM hM')
    obtain ⟨C, hC, hd, rfl⟩ := a
    obtain ⟨C', hC', hd', rfl⟩ := b
    rw [hl.1] at hC'
    obtain rfl := permittivity_unique hC' hC
    have hx' : ∀ i, ((kx' i.rev : ℝ) : ℂ) = -(kx i : ℂ) := fun i => by rw [hx]; push_cast; rfl
    have hy' : ∀ i, ((ky' i.rev : ℝ) : ℂ) = -(ky i : ℂ) := fun i => by rw [hy]; push_cast; rfl
    have h1 : ∀ i j : Fin N, (1 : Matrix (Fin N) (Fin N) ℂ) i.rev j.rev = (1 : Matrix (Fin N) (Fin N) ℂ) j i := by
      intro i j; simp [Matrix.one_apply, Fin.rev_inj, eq_comm]
    simp only [maxwellP_eq, maxwellQ_eq]
    exact ⟨curl_lorentz hx' hy' (inv_opposite (permittivity_opposite hC)) h1,
      curl_lorentz hx' hy' h1 (permittivity_opposite hC), by rw [hl.2]⟩

/-- Two calculations on devices with the same layers, at opposite in-plane wave vectors. -/
theorem runs_lorentz (he : EigContract (lib.eig N)) (hop : OppositeOrders c.expansion)
    (hx : c'.expansion = c.expansion)
    (h : DeviceRun lib c stack m Ls er et wl te tm theta phi kpo kp c3)
    (h' : DeviceRun lib c' stack' m' Ls' er et wl te' tm' theta' phi' kpo' (-kp.1, -kp.2) c3')
    (hL : List.Forall₂ (fun l l' => l'.form = l.form ∧ l'.depth = l.depth) Ls Ls')
    (hst : c3.stacked = some st) (hst' : c3'.stacked = some st') {p q p' q' : Port (Fin N ⊕ Fin N)}
    (hs : Scatters st.Stot p q) (hs' : Scatters st'.Stot p' q') :
    lorentz (outerField (orderKx c.expansion (-kp.1, -kp.2) wl) (orderKy c.expansion (-kp.1, -kp.2) wl) er p')
        (outerField (orderKx c.expansion kp wl) (orderKy c.expansion kp wl) er p) =
      lorentz (outerField (orderKx c.expansion (-kp.1, -kp.2) wl) (orderKy c.expansion (-kp.1, -kp.2) wl) et q')
        (outerField (orderKx c.expansion kp wl) (orderKy c.expansion kp wl) et q) := by
  obtain ⟨hc, c1, c2, order, src, h1, h2, ho, h3, hsr, hkp⟩ := h
  obtain ⟨hc', c1', c2', order', src', h1', h2', ho', h3', hsr', hkp'⟩ := h'
  obtain ⟨st1, Ms, e1, hM, hS⟩ := C12_crystal he hc h1 h2 ho h3 hsr hkp
  obtain ⟨st1', Ms', e1', hM', hS'⟩ := C12_crystal he hc' h1' h2' ho' h3' hsr' hkp'
  rw [hst, Option.some.injEq] at e1
  rw [hst', Option.some.injEq] at e1'
  subst e1 e1'
  rw [hx] at hM' hS'
  have hk := order_opposite hop kp wl
  have := chain_pairing lorentzMat_unit (layers_pairing (fun i => (hk i).1) (fun i => (hk i).2) hL hM hM')
    ((hS p q).1 hs) ((hS' p' q').1 hs')
  rw [lorentz_eq, lorentz_eq, this]

/-- A calculation on a device and one on the same device turned over, at opposite in-plane wave vectors. -/
theorem runs_flipped (he : EigContract (lib.eig N)) (hop : OppositeOrders c.expansion)
    (hx : c'.expansion = c.expansion)
    (h : DeviceRun lib c stack m Ls er et wl te tm theta phi kpo kp c3)
    (h' : DeviceRun lib c' stack' m' Ls' et er wl te' tm' theta' phi' kpo' (-kp.1, -kp.2) c3')
    (hL : List.Forall₂ (fun l l' => l'.form = l.form ∧ l'.depth = l.depth) Ls.reverse Ls')
    (hst : c3.stacked = some st) (hst' : c3'.stacked = some st') {p q p' q' : Port (Fin N ⊕ Fin N)}
    (hs : Scatters st.Stot p q) (hs' : Scatters st'.Stot p' q') :
    lorentz (outerField (orderKx c.expansion (-kp.1, -kp.2) wl) (orderKy c.expansion (-kp.1, -kp.2) wl) er q'.flip)
        (outerField (orderKx c.expansion kp wl) (orderKy c.expansion kp wl) er p) =
      lorentz (outerField (orderKx c.expansion (-kp.1, -kp.2) wl) (orderKy c.expansion (-kp.1, -kp.2) wl) et p'.flip)
        (outerField (orderKx c.expansion kp wl) (orderKy c.expansion kp wl) et q) := by
  obtain ⟨hc, c1, c2, order, src, h1, h2, ho, h3, hsr, hkp⟩ := h
  obtain ⟨hc', c1', c2', order', src', h1', h2', ho', h3', hsr', hkp'⟩ := h'
  obtain ⟨st1, Ms, e1, hM, hS⟩ := C12_crystal he hc h1 h2 ho h3 hsr hkp
  obtain ⟨st1', Ms', e1', hM', hS'⟩ := C12_crystal he hc' h1' h2' ho' h3' hsr' hkp'
  rw [hst, Option.some.injEq] at e1
  rw [hst', Option.some.injEq] at e1'
  subst e1 e1'
  rw [hx] at hM' hS'
  have hk := order_opposite hop kp wl
  have hL' : List.Forall₂ (fun l l' => l'.form = l.form ∧ l'.depth = l.depth) Ls Ls'.reverse := by
    rw [← List.reverse_reverse Ls]
    exact List.rel_reverse hL
  have hM'' : LayerEquations lib.jv1 c.expansion (orderKx c.expansion (-kp.1, -kp.2) wl)
      (orderKy c.expansion (-kp.1, -kp.2) wl) (2 * Real.pi / wl) Ls'.reverse Ms'.reverse := List.rel_reverse hM'
  have := chain_pairing lorentzMat_unit (layers_pairing (fun i => (hk i).1) (fun i => (hk i).2) hL' hM hM'')
    ((hS p q).1 hs) (chain_flip ((hS' p' q').1 hs'))
  rw [lorentz_eq, lorentz_eq, outerField_flip, outerField_flip, this]

end

end

end Khepri
