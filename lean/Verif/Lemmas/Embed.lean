import Verif.Lemmas.Symmetry
import Verif.Lemmas.TmatLayer
import Verif.Spec.Turn

set_option linter.unusedSectionVars false

/-!
Devices whose orders are, up to a turn and phases, some of the orders of another device.
-/

namespace Khepri

open Matrix

section
variable {m n : Type} [Fintype m] [DecidableEq m] [Fintype n] [DecidableEq n]

theorem exp_embed {A : Matrix m m ℂ} {B : Matrix n n ℂ} {J : Matrix m n ℂ} (h : A * J = J * B) (t : ℝ) (x : n → ℂ) :
    NormedSpace.exp ((t : ℂ) • A) *ᵥ (J *ᵥ x) = J *ᵥ (NormedSpace.exp ((t : ℂ) • B) *ᵥ x) := by
  have := flow_unique (A := A) (f := fun z : ℝ => J *ᵥ (NormedSpace.exp ((z : ℂ) • B) *ᵥ x)) (fun z i => ?_) t
  · rw [this]
    simp
  · rw [mulVec_mulVec, h, ← mulVec_mulVec]
    exact HasDerivAt.fun_sum fun j _ => (hasDerivAt_exp_mulVec B x z j).const_mul (J i j)

/-- Tangential fields put in a larger space. -/
def Tang.put (UE UH : Matrix m n ℂ) (F : Tang n) : Tang m := ⟨UE *ᵥ F.E, UH *ᵥ F.H⟩

/-- Waves put in a larger space. -/
def Port.put (U : Matrix m n ℂ) (p : Port n) : Port m := ⟨U *ᵥ p.fwd, U *ᵥ p.bwd⟩

theorem transfer_put {P Q : Matrix n n ℂ} {P' Q' : Matrix m m ℂ} {UE UH : Matrix m n ℂ} {t : ℝ}
    (hP : P' * UH = UE * P) (hQ : Q' * UE = UH * Q) {F G : Tang n} (h : MaxwellTransfer P Q t F G) :
    MaxwellTransfer P' Q' t (F.put UE UH) (G.put UE UH) := by
  unfold MaxwellTransfer at *
  have hi : fromBlocks 0 P' Q' 0 * fromBlocks UE 0 0 UH = fromBlocks UE 0 0 UH * fromBlocks 0 P Q 0 := by
    rw [fromBlocks_multiply, fromBlocks_multiply]
    simp [hP, hQ]
  have e : ∀ F : Tang n, Sum.elim (F.put UE UH).E (F.put UE UH).H = fromBlocks UE 0 0 UH *ᵥ Sum.elim F.E F.H := by
    intro F
    rw [fromBlocks_mulVec]
    simp [Tang.put]
  rw [e, e, h, exp_embed hi]

theorem chain_put {UE UH : Matrix m n ℂ} {Ms : List (Matrix n n ℂ × Matrix n n ℂ × ℝ)}
    {Ms' : List (Matrix m m ℂ × Matrix m m ℂ × ℝ)}
    (h : List.Forall₂ (fun M M' => M'.1 * UH = UE * M.1 ∧ M'.2.1 * UE = UH * M.2.1 ∧ M'.2.2 = M.2.2) Ms Ms')
    {F G : Tang n} (hc : MaxwellChain Ms F G) : MaxwellChain Ms' (F.put UE UH) (G.put UE UH) := by
  induction h generalizing F with
  | nil => exact congrArg _ hc
  | cons hM _ ih =>
    obtain ⟨K, h1, h2⟩ := hc
    refine ⟨K.put UE UH, ?_, ih h2⟩
    rw [hM.2.2]
    exact transfer_put hM.1 hM.2.1 h1

/-- S-matrices of two devices whose equations correspond. -/
theorem scatters_put {UE UH : Matrix m n ℂ} {Ms : List (Matrix n n ℂ × Matrix n n ℂ × ℝ)}
    {Ms' : List (Matrix m m ℂ × Matrix m m ℂ × ℝ)}
    (h : List.Forall₂ (fun M M' => M'.1 * UH = UE * M.1 ∧ M'.2.1 * UE = UH * M.2.1 ∧ M'.2.2 = M.2.2) Ms Ms')
    {S : SMat n} {S' : SMat m} {fr ft : Port n → Tang n} {fr' ft' : Port m → Tang m}
    (hS : ∀ p q, Scatters S p q ↔ MaxwellChain Ms (fr p) (ft q))
    (hS' : ∀ p q, Scatters S' p q ↔ MaxwellChain Ms' (fr' p) (ft' q))
    (hr : ∀ p, fr' (p.put UE) = (fr p).put UE UH) (ht : ∀ p, ft' (p.put UE) = (ft p).put UE UH) :
    S'.s11 * UE = UE * S.s11 ∧ S'.s12 * UE = UE * S.s12 ∧ S'.s21 * UE = UE * S.s21 ∧ S'.s22 * UE = UE * S.s22 := by
  have key : ∀ p q, Scatters S p q → Scatters S' (p.put UE) (q.put UE) := by
    intro p q hpq
    rw [hS', hr, ht]
    exact chain_put h ((hS p q).1 hpq)
  have hc : ∀ a b : n → ℂ, UE *ᵥ (S.s11 *ᵥ a + S.s12 *ᵥ b) = S'.s11 *ᵥ UE *ᵥ a + S'.s12 *ᵥ UE *ᵥ b ∧
      UE *ᵥ (S.s21 *ᵥ a + S.s22 *ᵥ b) = S'.s21 *ᵥ UE *ᵥ a + S'.s22 *ᵥ UE *ᵥ b := fun a b =>
    key ⟨a, S.s11 *ᵥ a + S.s12 *ᵥ b⟩ ⟨S.s21 *ᵥ a + S.s22 *ᵥ b, b⟩ ⟨rfl, rfl⟩
  refine ⟨?_, ?_, ?_, ?_⟩
  · refine Matrix.ext_of_mulVec_single fun i => ?_
    rw [← mulVec_mulVec, ← mulVec_mulVec]
    simpa using (hc (Pi.single i 1) 0).1.symm
  · refine Matrix.ext_of_mulVec_single fun i => ?_
    rw [← mulVec_mulVec, ← mulVec_mulVec]
    simpa using (hc 0 (Pi.single i 1)).1.symm
  · refine Matrix.ext_of_mulVec_single fun i => ?_
    rw [← mulVec_mulVec, ← mulVec_mulVec]
    simpa using (hc (Pi.single i 1) 0).2.symm
  · refine Matrix.ext_of_mulVec_single fun i => ?_
    rw [← mulVec_mulVec, ← mulVec_mulVec]
    simpa using (hc 0 (Pi.single i 1)).2.symm

end

namespace Turn

theorem unitC (o : Turn) : (o.c : ℂ) ^ 2 + (o.s : ℂ) ^ 2 = 1 := by exact_mod_cast o.unit

theorem signC (o : Turn) : (o.e : ℂ) ^ 2 = 1 := by exact_mod_cast o.sign

theorem norm_app (o : Turn) (v : R2) : (o.app v).1 ^ 2 + (o.app v).2 ^ 2 = v.1 ^ 2 + v.2 ^ 2 := by
  have h := o.unit
  have h' := o.sign
  simp only [app]
  linear_combination (v.1 ^ 2 + o.e ^ 2 * v.2 ^ 2) * h + v.2 ^ 2 * h'

/-- No turn. -/
def id : Turn := ⟨1, 0, 1, by norm_num, by norm_num⟩

@[simp] theorem id_app (v : R2) : id.app v = v := by simp [app, id]

variable {N n : ℕ}

/-- The matrix that turns the field of every order. -/
noncomputable def mat (o : Turn) (n : ℕ) : Mat2 n :=
  fromBlocks ((o.c : ℂ) • 1) (-((o.e : ℂ) * o.s) • 1) ((o.s : ℂ) • 1) (((o.e : ℂ) * o.c) • 1)

theorem turn_curl (o : Turn) {kx ky kx' ky' : Fin n → ℝ} {K M : Matrix (Fin n) (Fin n) ℂ}
    (h : ∀ i, (kx' i, ky' i) = o.app (kx i, ky i)) :
    curlBlock (fun i => (kx' i : ℂ)) (fun i => (ky' i : ℂ)) K M * ((o.e : ℂ) • o.mat n) =
      o.mat n * curlBlock (fun i => (kx i : ℂ)) (fun i => (ky i : ℂ)) K M := by
  have hu := o.unitC
  have hs := o.signC
  have h1 : ∀ i, kx' i = o.c * kx i - o.e * o.s * ky i := fun i => congrArg Prod.fst (h i)
  have h2 : ∀ i, ky' i = o.s * kx i + o.e * o.c * ky i := fun i => congrArg Prod.snd (h i)
  simp only [curlBlock, mat, Matrix.mul_smul, fromBlocks_multiply, fromBlocks_smul]
  congr 1 <;>
  · ext i j
    simp only [Matrix.add_apply, Matrix.smul_mul, Matrix.mul_one, Matrix.one_mul,
      Matrix.smul_apply, Matrix.sub_apply, Matrix.neg_apply, smul_eq_mul, diagonal_mul, mul_diagonal, h1, h2,
      Complex.ofReal_add, Complex.ofReal_sub, Complex.ofReal_mul]
    first
    | linear_combination (K i j * (o.c * kx i - o.e * o.s * ky i : ℂ) * ky j * o.e ^ 2) * hu + (K i j * (o.c * kx i - o.e * o.s * ky i : ℂ) * ky j) * hs
    | linear_combination -(K i j * (o.c * kx i - o.e * o.s * ky i : ℂ) * kx j * o.e ^ 2) * hu + (M i j * o.c - K i j * (o.c * kx i - o.e * o.s * ky i : ℂ) * kx j) * hs
    | linear_combination (K i j * (o.s * kx i + o.e * o.c * ky i : ℂ) * ky j * o.e ^ 2) * hu + (K i j * (o.s * kx i + o.e * o.c * ky i : ℂ) * ky j) * hs
    | linear_combination -(K i j * (o.s * kx i + o.e * o.c * ky i : ℂ) * kx j * o.e ^ 2) * hu + (M i j * o.s - K i j * (o.s * kx i + o.e * o.c * ky i : ℂ) * kx j) * hs

end Turn

section
variable {N n : ℕ}

/-- Order `b` becomes order `f b`, with the phase `d b`. -/
def embedMat (f : Fin n → Fin N) (d : Fin n → ℂ) : Matrix (Fin N) (Fin n) ℂ :=
  Matrix.of fun x b => if x = f b then d b else 0

theorem diagonal_embed {f : Fin n → Fin N} {d : Fin n → ℂ} {a' : Fin N → ℂ} {a : Fin n → ℂ} (h : ∀ b, a' (f b) = a b) :
    diagonal a' * embedMat f d = embedMat f d * diagonal a := by
  ext x b
  rw [diagonal_mul, mul_diagonal]
  simp only [embedMat, Matrix.of_apply]
  split
  · next hx => rw [hx, h, mul_comm]
  · simp

theorem embed_inv {J : Matrix (Fin N) (Fin n) ℂ} {C : Matrix (Fin n) (Fin n) ℂ} {C' : Matrix (Fin N) (Fin N) ℂ}
    (hC : C.det ≠ 0) (hC' : C'.det ≠ 0) (h : C' * J = J * C) : C'⁻¹ * J = J * C⁻¹ := by
  have h1 : J = C'⁻¹ * (J * C) := by rw [← h, Matrix.nonsing_inv_mul_cancel_left _ _ hC'.isUnit]
  rw [← Matrix.mul_assoc] at h1
  conv_rhs => rw [h1]
  rw [Matrix.mul_nonsing_inv_cancel_right _ _ hC.isUnit]

/-- The electric field of a device put, turned, among the orders of another one. -/
noncomputable def carryMat (f : Fin n → Fin N) (d : Fin n → ℂ) (o : Turn) : Matrix (Fin N ⊕ Fin N) (Fin n ⊕ Fin n) ℂ :=
  fromBlocks (embedMat f d) 0 0 (embedMat f d) * o.mat n

theorem embed_curl {f : Fin n → Fin N} {d : Fin n → ℂ} {kx' ky' : Fin N → ℂ} {kx ky : Fin n → ℂ}
    {K M : Matrix (Fin n) (Fin n) ℂ} {K' M' : Matrix (Fin N) (Fin N) ℂ} (hx : ∀ b, kx' (f b) = kx b)
    (hy : ∀ b, ky' (f b) = ky b) (hK : K' * embedMat f d = embedMat f d * K)
    (hM : M' * embedMat f d = embedMat f d * M) :
    curlBlock kx' ky' K' M' * fromBlocks (embedMat f d) 0 0 (embedMat f d) =
      fromBlocks (embedMat f d) 0 0 (embedMat f d) * curlBlock kx ky K M := by
  have dx := diagonal_embed (d := d) hx
  have dy := diagonal_embed (d := d) hy
  simp only [curlBlock, fromBlocks_multiply, Matrix.mul_zero, Matrix.zero_mul, add_zero, zero_add, Matrix.sub_mul,
    Matrix.mul_sub, Matrix.neg_mul, Matrix.mul_neg]
  have t : ∀ {a b : Fin N → ℂ} {a' b' : Fin n → ℂ}, diagonal a * embedMat f d = embedMat f d * diagonal a' →
      diagonal b * embedMat f d = embedMat f d * diagonal b' →
      diagonal a * K' * diagonal b * embedMat f d = embedMat f d * (diagonal a' * K * diagonal b') := by
    intro a b a' b' ha hb
    rw [Matrix.mul_assoc, hb, Matrix.mul_assoc, ← Matrix.mul_assoc K', hK, Matrix.mul_assoc, ← Matrix.mul_assoc, ha]
    simp only [Matrix.mul_assoc]
  rw [t dx dy, t dx dx, t dy dy, t dy dx, hM]
  simp

variable {f : Fin n → Fin N} {d : Fin n → ℂ} {o : Turn} {kx ky : Fin n → ℝ} {kx' ky' : Fin N → ℝ}
  {K M : Matrix (Fin n) (Fin n) ℂ} {K' M' : Matrix (Fin N) (Fin N) ℂ}

theorem carry_curl (hk : ∀ b, (kx' (f b), ky' (f b)) = o.app (kx b, ky b))
    (hK : K' * embedMat f d = embedMat f d * K) (hM : M' * embedMat f d = embedMat f d * M) :
    curlBlock (fun i => (kx' i : ℂ)) (fun i => (ky' i : ℂ)) K' M' * ((o.e : ℂ) • carryMat f d o) =
      carryMat f d o * curlBlock (fun i => (kx i : ℂ)) (fun i => (ky i : ℂ)) K M := by
  have := embed_curl (d := d) (f := f) (kx' := fun i => (kx' i : ℂ)) (ky' := fun i => (ky' i : ℂ))
    (kx := fun b => ((kx' (f b) : ℝ) : ℂ)) (ky := fun b => ((ky' (f b) : ℝ) : ℂ)) (fun _ => rfl) (fun _ => rfl) hK hM
  rw [carryMat, ← Matrix.mul_smul, ← Matrix.mul_assoc, this, Matrix.mul_assoc, Turn.turn_curl o hk, Matrix.mul_assoc]

theorem carry_curl' (hk : ∀ b, (kx' (f b), ky' (f b)) = o.app (kx b, ky b))
    (hK : K' * embedMat f d = embedMat f d * K) (hM : M' * embedMat f d = embedMat f d * M) :
    curlBlock (fun i => (kx' i : ℂ)) (fun i => (ky' i : ℂ)) K' M' * carryMat f d o =
      ((o.e : ℂ) • carryMat f d o) * curlBlock (fun i => (kx i : ℂ)) (fun i => (ky i : ℂ)) K M := by
  rw [Matrix.smul_mul, ← carry_curl hk hK hM, Matrix.mul_smul, smul_smul, ← sq, o.signC, one_smul]

theorem carryMat_mulVec (v : Vec2 n) : carryMat f d o *ᵥ v = Sum.elim
    (fun x => ∑ b, if x = f b then d b * (o.c * v (.inl b) - o.e * o.s * v (.inr b)) else 0)
    (fun x => ∑ b, if x = f b then d b * (o.s * v (.inl b) + o.e * o.c * v (.inr b)) else 0) := by
  rw [carryMat, ← mulVec_mulVec, Turn.mat, fromBlocks_mulVec, fromBlocks_mulVec]
  congr 1 <;> funext x <;>
  · simp only [zero_mulVec, add_zero, zero_add, smul_mulVec, one_mulVec, mulVec, dotProduct, embedMat, Matrix.of_apply,
      Sum.elim_comp_inl, Sum.elim_comp_inr, Pi.add_apply, Pi.smul_apply, smul_eq_mul, Function.comp_apply, Pi.zero_apply]
    refine Finset.sum_congr rfl fun (b : Fin n) _ => ?_
    split
    · first | rfl | ring
    · simp

theorem carryMat_on (hf : Function.Injective f) (v : Vec2 n) (b : Fin n) :
    (carryMat f d o *ᵥ v) (.inl (f b)) = d b * (o.c * v (.inl b) - o.e * o.s * v (.inr b)) ∧
    (carryMat f d o *ᵥ v) (.inr (f b)) = d b * (o.s * v (.inl b) + o.e * o.c * v (.inr b)) := by
  rw [carryMat_mulVec]
  simp only [Sum.elim_inl, Sum.elim_inr, hf.eq_iff]
  simp

theorem carryMat_off {x : Fin N} (hx : ∀ b, x ≠ f b) (v : Vec2 n) :
    (carryMat f d o *ᵥ v) (.inl x) = 0 ∧ (carryMat f d o *ᵥ v) (.inr x) = 0 := by
  rw [carryMat_mulVec]
  simp [hx]

theorem carryMat_ne {x : Fin N ⊕ Fin N} {y : Fin n ⊕ Fin n} (h : carryMat f d o x y ≠ 0) :
    (x.elim id id : Fin N) = f (y.elim id id) := by
  by_contra hne
  apply h
  rw [carryMat, Turn.mat, fromBlocks_multiply]
  rcases x with x | x <;> rcases y with y | y <;> simp only [Sum.elim_inl, Sum.elim_inr, id] at hne <;>
    simp [embedMat, hne]

theorem outer_put {er : ℝ} (hk : ∀ b, (kx' (f b), ky' (f b)) = o.app (kx b, ky b)) (p : Port (Fin n ⊕ Fin n)) :
    outerField kx' ky' er (p.put (carryMat f d o)) =
      (outerField kx ky er p).put (carryMat f d o) ((o.e : ℂ) • carryMat f d o) := by
  have hQ : maxwellQ (fun i => (kx' i : ℂ)) (fun i => (ky' i : ℂ)) ((er : ℂ) • 1) * carryMat f d o =
      ((o.e : ℂ) • carryMat f d o) * maxwellQ (fun i => (kx i : ℂ)) (fun i => (ky i : ℂ)) ((er : ℂ) • 1) := by
    rw [maxwellQ_eq, maxwellQ_eq]
    exact carry_curl' hk (by simp) (by simp)
  unfold outerField Tang.put Port.put
  congr 1
  · rw [mulVec_add]
  · rw [mulVec_mulVec, ← hQ, ← mulVec_mulVec]
    congr 1
    funext i
    rw [← Pi.sub_apply, ← mulVec_sub]
    simp only [mulVec, dotProduct, Pi.sub_apply]
    rw [Finset.sum_div]
    refine Finset.sum_congr rfl fun j _ => ?_
    by_cases h : carryMat f d o i j = 0
    · simp [h]
    · rw [mul_div_assoc, sub_sub, sub_sub, carryMat_ne h]
      have := o.norm_app (kx (j.elim id id), ky (j.elim id id))
      rw [← hk] at this
      simp only at this
      rw [this]

theorem waveNorm_carry (hf : Function.Injective f) (hd : ∀ b, ‖d b‖ = 1)
    (hk : ∀ b, (kx' (f b), ky' (f b)) = o.app (kx b, ky b)) {kz : Fin n → ℂ} {kz' : Fin N → ℂ} {w : ℂ} (hw : ‖w‖ = 1)
    {b : Fin n} (hz : kz' (f b) = kz b) (v : Vec2 n) :
    waveNorm kx' ky' kz' (w • (carryMat f d o *ᵥ v)) (f b) = waveNorm kx ky kz v b := by
  obtain ⟨h1, h2⟩ := carryMat_on (d := d) (o := o) hf v b
  have k1 : kx' (f b) = o.c * kx b - o.e * o.s * ky b := congrArg Prod.fst (hk b)
  have k2 : ky' (f b) = o.s * kx b + o.e * o.c * ky b := congrArg Prod.snd (hk b)
  unfold waveNorm
  simp only [Pi.smul_apply, h1, h2, hz, k1, k2, smul_eq_mul]
  have hu := o.unitC
  have hs := o.signC
  have e : -(((o.c * kx b - o.e * o.s * ky b : ℝ) : ℂ) * (w * (d b * (o.c * v (.inl b) - o.e * o.s * v (.inr b)))) +
      ((o.s * kx b + o.e * o.c * ky b : ℝ) : ℂ) * (w * (d b * (o.s * v (.inl b) + o.e * o.c * v (.inr b))))) / kz b =
      w * (d b * (-(kx b * v (.inl b) + ky b * v (.inr b)) / kz b)) := by
    push_cast
    rw [mul_div_assoc', mul_div_assoc']
    congr 1
    linear_combination (-(w * d b) * (kx b * v (.inl b) + o.e ^ 2 * (ky b * v (.inr b)))) * hu -
      (w * d b * (ky b * v (.inr b))) * hs
  rw [e, norm_mul, norm_mul, norm_mul, norm_mul, norm_mul, norm_mul, hw, hd, one_mul, one_mul, one_mul, one_mul, one_mul,
    one_mul]
  congr 1
  have hur := o.unit
  have hsr := o.sign
  simp only [normSq_re_im, Complex.sub_re, Complex.sub_im, Complex.add_re, Complex.add_im, Complex.mul_re,
    Complex.mul_im, Complex.ofReal_re, Complex.ofReal_im, zero_mul, sub_zero, add_zero, mul_zero]
  linear_combination ((v (.inl b)).re ^ 2 + (v (.inl b)).im ^ 2 +
    o.e ^ 2 * ((v (.inr b)).re ^ 2 + (v (.inr b)).im ^ 2)) * hur + ((v (.inr b)).re ^ 2 + (v (.inr b)).im ^ 2) * hsr

theorem waveNorm_off {kz' : Fin N → ℂ} {w : ℂ} {x : Fin N} (hx : ∀ b, x ≠ f b) (v : Vec2 n) :
    waveNorm kx' ky' kz' (w • (carryMat f d o *ᵥ v)) x = 0 := by
  obtain ⟨h1, h2⟩ := carryMat_off (d := d) (o := o) hx v
  simp [waveNorm, h1, h2]

/-- What comes out of a solved device at a real source: its S-matrix solves Maxwell's equations in its layers, and the
fluxes are those of the waves it sends back and forth. -/
structure Outcome (kx ky : Fin N → ℝ) (er et x0 : ℝ) (Ms : List (Mat2 N × Mat2 N × ℝ)) (S : SMat (Fin N ⊕ Fin N))
    (inc : Vec2 N) (f : Crystal.Fluxes N) : Prop where
  scat : ∀ p q, Scatters S p q ↔ MaxwellChain Ms (outerField kx ky er p) (outerField kx ky et q)
  Rg : ∀ i, f.Rg i = (outerKz (er - kx i ^ 2 - ky i ^ 2)).re / Real.sqrt x0 *
    waveNorm kx ky (fun i => outerKz (er - kx i ^ 2 - ky i ^ 2)) (S.s11 *ᵥ inc) i
  Tg : ∀ i, f.Tg i = (outerKz (et - kx i ^ 2 - ky i ^ 2)).re / Real.sqrt x0 *
    waveNorm kx ky (fun i => outerKz (et - kx i ^ 2 - ky i ^ 2)) (S.s21 *ᵥ inc) i
  R : f.R = ∑ i, f.Rg i
  T : f.T = ∑ i, f.Tg i

/-- The fluxes of a device whose orders are, turned, some of the orders of another device. -/
theorem outcome_carry {er et x0 : ℝ} {Ms : List (Mat2 n × Mat2 n × ℝ)} {Ms' : List (Mat2 N × Mat2 N × ℝ)}
    {S : SMat (Fin n ⊕ Fin n)} {S' : SMat (Fin N ⊕ Fin N)} {inc : Vec2 n} {inc' : Vec2 N} {F : Crystal.Fluxes n}
    {F' : Crystal.Fluxes N} (h : Outcome kx ky er et x0 Ms S inc F) (h' : Outcome kx' ky' er et x0 Ms' S' inc' F')
    (hf : Function.Injective f) (hd : ∀ b, ‖d b‖ = 1) (hk : ∀ b, (kx' (f b), ky' (f b)) = o.app (kx b, ky b))
    (hM : List.Forall₂ (fun M M' => M'.1 * ((o.e : ℂ) • carryMat f d o) = carryMat f d o * M.1 ∧
      M'.2.1 * carryMat f d o = ((o.e : ℂ) • carryMat f d o) * M.2.1 ∧ M'.2.2 = M.2.2) Ms Ms')
    {w : ℂ} (hw : ‖w‖ = 1) (hinc : inc' = w • (carryMat f d o *ᵥ inc)) :
    (∀ b, F'.Rg (f b) = F.Rg b ∧ F'.Tg (f b) = F.Tg b) ∧ (∀ x, (∀ b, x ≠ f b) → F'.Rg x = 0 ∧ F'.Tg x = 0) ∧
      F'.R = F.R ∧ F'.T = F.T := by
  obtain ⟨e1, -, e3, -⟩ := scatters_put hM h.scat h'.scat (outer_put hk) (outer_put hk)
  have i1 : S'.s11 *ᵥ inc' = w • (carryMat f d o *ᵥ (S.s11 *ᵥ inc)) := by
    rw [hinc, mulVec_smul, mulVec_mulVec, e1, ← mulVec_mulVec]
  have i3 : S'.s21 *ᵥ inc' = w • (carryMat f d o *ᵥ (S.s21 *ᵥ inc)) := by
    rw [hinc, mulVec_smul, mulVec_mulVec, e3, ← mulVec_mulVec]
  have hz : ∀ (e : ℝ) b, e - kx' (f b) ^ 2 - ky' (f b) ^ 2 = e - kx b ^ 2 - ky b ^ 2 := by
    intro e b
    have := o.norm_app (kx b, ky b)
    rw [← hk] at this
    simp only at this
    linarith
  have on : ∀ b, F'.Rg (f b) = F.Rg b ∧ F'.Tg (f b) = F.Tg b := by
    intro b
    rw [h.Rg, h.Tg, h'.Rg, h'.Tg, i1, i3, waveNorm_carry hf hd hk hw (b := b)
        (kz := fun i => outerKz (er - kx i ^ 2 - ky i ^ 2)) (by simp only [hz]), waveNorm_carry hf hd hk hw (b := b)
        (kz := fun i => outerKz (et - kx i ^ 2 - ky i ^ 2)) (by simp only [hz]), hz, hz]
    exact ⟨rfl, rfl⟩
  have off : ∀ x, (∀ b, x ≠ f b) → F'.Rg x = 0 ∧ F'.Tg x = 0 := by
    intro x hx
    rw [h'.Rg, h'.Tg, i1, i3, waveNorm_off hx, waveNorm_off hx, mul_zero, mul_zero]
    exact ⟨rfl, rfl⟩
  have sums : ∀ (g : Fin n → ℝ) (g' : Fin N → ℝ), (∀ b, g' (f b) = g b) → (∀ x, (∀ b, x ≠ f b) → g' x = 0) →
      ∑ x, g' x = ∑ b, g b := by
    intro g g' h1 h2
    rw [← Finset.sum_congr rfl fun b _ => h1 b, ← Finset.sum_image (f := g') (s := Finset.univ) (g := f) (by
      intro a _ b _ hab; exact hf hab)]
    refine (Finset.sum_subset (Finset.subset_univ _) fun x _ hx => h2 x fun b hb => hx ?_).symm
    exact Finset.mem_image.2 ⟨b, Finset.mem_univ _, hb.symm⟩
  refine ⟨on, off, ?_, ?_⟩
  · rw [h.R, h'.R]
    exact sums _ _ (fun b => (on b).1) (fun x hx => (off x hx).1)
  · rw [h.T, h'.T]
    exact sums _ _ (fun b => (on b).2) (fun x hx => (off x hx).2)

end

end Khepri
