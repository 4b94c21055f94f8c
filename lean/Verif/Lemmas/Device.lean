import Verif.Lemmas.Modes

set_option linter.unusedSectionVars false

namespace Khepri

open Matrix

variable {n : Type} [Fintype n] [DecidableEq n]

/-! ### Zero thickness -/

theorem modalTransfer_zero {W V : Matrix n n ℂ} {lam : n → ℂ} (hW : W.det ≠ 0) (hV : V.det ≠ 0)
    {F G : Tang n} : ModalTransfer W V lam 0 F G ↔ F = G := by
  constructor
  · rintro ⟨a, b, rfl, rfl, h1, h2⟩
    have : b = a := by
      apply Port.ext
      · funext i; simpa using h1 i
      · funext i; simpa using h2 i
    rw [this]
  · rintro rfl
    obtain ⟨a, rfl⟩ := fieldOf_surjective hW hV F
    exact ⟨a, a, rfl, rfl, by simp, by simp⟩

theorem modalTransfer_add {W V : Matrix n n ℂ} {lam : n → ℂ} (hW : W.det ≠ 0) (hV : V.det ≠ 0)
    {F G : Tang n} (s t : ℝ) :
    ModalTransfer W V lam (s + t) F G ↔
      ∃ K, ModalTransfer W V lam s F K ∧ ModalTransfer W V lam t K G := by
  constructor
  · rintro ⟨a, b, rfl, rfl, h1, h2⟩
    let c : Port n := ⟨fun i => Complex.exp (-(lam i * s)) * a.fwd i,
      fun i => Complex.exp (lam i * s) * a.bwd i⟩
    refine ⟨fieldOf W V c, ⟨a, c, rfl, rfl, fun _ => rfl, fun _ => rfl⟩,
      ⟨c, b, rfl, rfl, fun i => ?_, fun i => ?_⟩⟩
    · rw [h1 i, ← mul_assoc, ← Complex.exp_add]; congr 2; push_cast; ring
    · rw [h2 i, ← mul_assoc, ← Complex.exp_add]; congr 2; push_cast; ring
  · rintro ⟨K, ⟨a, c, rfl, rfl, h1, h2⟩, ⟨c', b, hc, rfl, h3, h4⟩⟩
    obtain rfl := fieldOf_injective hW hV hc
    refine ⟨a, b, rfl, rfl, fun i => ?_, fun i => ?_⟩
    · rw [h3 i, h1 i, ← mul_assoc, ← Complex.exp_add]; congr 2; push_cast; ring
    · rw [h4 i, h2 i, ← mul_assoc, ← Complex.exp_add]; congr 2; push_cast; ring

theorem buildScatmat_det {W V W0 V0 : Matrix n n ℂ} {lam : n → ℂ} {d k0 : ℝ} {S : SMat n}
    (h : buildScatmat W V W0 V0 lam d k0 = .ok S) : W.det ≠ 0 ∧ V.det ≠ 0 := by
  obtain ⟨A, B, X, T, hA, hB, hX, hT, dW, dV, _⟩ := buildScatmat_eq_ok.1 h
  exact ⟨dW, dV⟩

theorem buildScatmat_zero {W V W0 V0 : Matrix n n ℂ} {lam : n → ℂ} {k0 : ℝ} {S : SMat n}
    (h : buildScatmat W V W0 V0 lam 0 k0 = .ok S) : S = scatteringIdentity n := by
  symm
  apply SMat.ext_scatters
  intro p q hpq
  rw [scatters_id] at hpq
  subst hpq
  obtain ⟨hW, hV⟩ := buildScatmat_det h
  rw [scatters_buildScatmat h, LayerBVP, zero_mul, modalTransfer_zero hW hV]

/-- Inserting the identity anywhere does not change the fold. -/
theorem leftFold_insert_id (P : SMat n) (l l' : List (SMat n)) :
    leftFold P (l ++ scatteringIdentity n :: l') = leftFold P (l ++ l') := by
  rw [leftFold_append, leftFold_append]
  congr 1; funext P'
  rw [leftFold, redheffer_id_right, ok_bind]

theorem revFold_insert_id (P : SMat n) (l l' : List (SMat n)) :
    revFold P (l ++ scatteringIdentity n :: l') = revFold P (l ++ l') := by
  rw [revFold_append, revFold_append]
  congr 1; funext P'
  rw [revFold, redheffer_id_left, ok_bind]

/-! ### Slices -/

/-- A chain of slices of one material transfers the gap field like one slab of the total thickness. -/
theorem slices_chain {W V W0 V0 : Matrix n n ℂ} {lam : n → ℂ} {k0 : ℝ} (hW : W.det ≠ 0)
    (hV : V.det ≠ 0) {ds : List ℝ} {Ss : List (SMat n)}
    (h : List.Forall₂ (fun d S => buildScatmat W V W0 V0 lam d k0 = .ok S) ds Ss) {p q : Port n}
    (hpq : Chain Ss p q) : LayerBVP W V W0 V0 lam (ds.sum * k0) p q := by
  induction h generalizing p with
  | nil =>
    simp only [Chain] at hpq
    subst hpq
    rw [LayerBVP, List.sum_nil, zero_mul, modalTransfer_zero hW hV]
  | cons h1 h2 ih =>
    obtain ⟨m, hm, hrest⟩ := hpq
    rw [scatters_buildScatmat h1] at hm
    rw [LayerBVP, List.sum_cons, add_mul, modalTransfer_add hW hV]
    exact ⟨_, hm, ih hrest⟩

/-! ### Half spaces -/

/-- The two amplitude vectors of a port exchanged. -/
def Port.swap (p : Port n) : Port n := ⟨p.bwd, p.fwd⟩

theorem scatters_flip {S : SMat n} {p q : Port n} :
    Scatters S.flip p q ↔ Scatters S q.swap p.swap := by
  simp only [Scatters, SMat.flip, Port.swap]
  rw [add_comm (S.s22 *ᵥ _), add_comm (S.s12 *ᵥ _)]
  tauto

theorem fieldOf_swap_eq {W V W' V' : Matrix n n ℂ} {p q : Port n} :
    fieldOf W V p.swap = fieldOf W' V' q.swap ↔ fieldOf W V p = fieldOf W' V' q := by
  simp only [fieldOf, Port.swap, Tang.mk.injEq]
  rw [add_comm p.bwd, add_comm q.bwd, ← neg_sub p.bwd, ← neg_sub q.bwd, mulVec_neg, mulVec_neg,
    neg_inj]

theorem reflectionScatmat_eq_ok {W0 V0 W V : Matrix n n ℂ} {S : SMat n} :
    reflectionScatmat W0 V0 W V = .ok S ↔
      ∃ A B : Matrix n n ℂ, A = W0⁻¹ * W + V0⁻¹ * V ∧ B = W0⁻¹ * W - V0⁻¹ * V ∧
        W0.det ≠ 0 ∧ V0.det ≠ 0 ∧ A.det ≠ 0 ∧
        S.s11 = -(A⁻¹ * B) ∧ S.s12 = (2 : ℂ) • A⁻¹ ∧ S.s21 = (0.5 : ℂ) • (A - B * (A⁻¹ * B)) ∧
        S.s22 = B * A⁻¹ := by
  obtain ⟨s11, s12, s21, s22⟩ := S
  simp only [reflectionScatmat, bind_eq_ok, npSolve_eq_ok, npInv_eq_ok]
  constructor
  · rintro ⟨a, ⟨h1, rfl⟩, b, ⟨h2, rfl⟩, aB, ⟨h3, rfl⟩, iA, ⟨-, rfl⟩, h⟩
    simp only [pure, Except.pure, Except.ok.injEq, SMat.mk.injEq] at h
    obtain ⟨rfl, rfl, rfl, rfl⟩ := h
    exact ⟨_, _, rfl, rfl, h1, h2, h3, rfl, rfl, rfl, rfl⟩
  · rintro ⟨A, B, rfl, rfl, h1, h2, h3, rfl, rfl, rfl, rfl⟩
    exact ⟨_, ⟨h1, rfl⟩, _, ⟨h2, rfl⟩, _, ⟨h3, rfl⟩, _, ⟨h3, rfl⟩, rfl⟩

theorem transmission_eq_flip (W0 V0 W V : Matrix n n ℂ) :
    transmissionScatmat W0 V0 W V = (reflectionScatmat W0 V0 W V).map SMat.flip := by
  by_cases h1 : W0.det = 0
  · simp [transmissionScatmat, reflectionScatmat, npSolve_err h1, error_bind, Except.map]
  by_cases h2 : V0.det = 0
  · simp [transmissionScatmat, reflectionScatmat, npSolve_ok h1, npSolve_err h2, error_bind, ok_bind,
      Except.map]
  by_cases h3 : (W0⁻¹ * W + V0⁻¹ * V).det = 0
  · simp [transmissionScatmat, reflectionScatmat, npSolve_ok h1, npSolve_ok h2, npSolve_err h3,
      error_bind, ok_bind, Except.map, npInv, h3]
  · simp [transmissionScatmat, reflectionScatmat, npSolve_ok h1, npSolve_ok h2, npSolve_ok h3,
      npInv_ok h3, ok_bind, Except.map, pure, Except.pure, SMat.flip]

theorem scatters_reflection {W0 V0 W V : Matrix n n ℂ} {S : SMat n}
    (h : reflectionScatmat W0 V0 W V = .ok S) (p q : Port n) :
    Scatters S p q ↔ fieldOf W V p = fieldOf W0 V0 q := by
  obtain ⟨A, B, hA, hB, d1, d2, d3, h11, h12, h21, h22⟩ := reflectionScatmat_eq_ok.1 h
  rw [fieldOf_eq_iff d1 d2, ← hA, ← hB, Scatters, h11, h12, h21, h22]
  have e1 : p.bwd = -(A⁻¹ * B) *ᵥ p.fwd + ((2 : ℂ) • A⁻¹) *ᵥ q.bwd ↔
      (2 : ℂ) • q.bwd = B *ᵥ p.fwd + A *ᵥ p.bwd := by
    have : -(A⁻¹ * B) *ᵥ p.fwd + ((2 : ℂ) • A⁻¹) *ᵥ q.bwd =
        A⁻¹ *ᵥ ((2 : ℂ) • q.bwd - B *ᵥ p.fwd) := by
      rw [mulVec_sub, neg_mulVec, mulVec_mulVec, smul_mulVec, mulVec_smul]; abel
    rw [this, ← mulVec_eq_iff d3, eq_sub_iff_add_eq, add_comm, eq_comm]
  rw [e1, and_comm]
  apply and_congr_left
  intro hq
  have hb : B *ᵥ (A⁻¹ *ᵥ ((2 : ℂ) • q.bwd)) = (B * (A⁻¹ * B)) *ᵥ p.fwd + B *ᵥ p.bwd := by
    rw [hq, mulVec_add, mulVec_add, mulVec_mulVec p.bwd A⁻¹ A, inv_mul_of_det d3, one_mulVec,
      mulVec_mulVec, mulVec_mulVec, Matrix.mul_assoc]
  have : ((0.5 : ℂ) • (A - B * (A⁻¹ * B))) *ᵥ p.fwd + (B * A⁻¹) *ᵥ q.bwd =
      (1 / 2 : ℂ) • (A *ᵥ p.fwd + B *ᵥ p.bwd) := by
    have h2 : (B * A⁻¹) *ᵥ q.bwd = (1 / 2 : ℂ) • (B *ᵥ (A⁻¹ *ᵥ ((2 : ℂ) • q.bwd))) := by
      rw [mulVec_smul, mulVec_smul, smul_smul, mulVec_mulVec]; norm_num
    rw [h2, hb, smul_mulVec, sub_mulVec, show (0.5 : ℂ) = 1 / 2 by norm_num]
    module
  rw [this]
  constructor
  · intro h; rw [h, smul_smul]; norm_num
  · intro h; rw [← h, smul_smul]; norm_num

theorem scatters_transmission {W0 V0 W V : Matrix n n ℂ} {S : SMat n}
    (h : transmissionScatmat W0 V0 W V = .ok S) (p q : Port n) :
    Scatters S p q ↔ fieldOf W0 V0 p = fieldOf W V q := by
  rw [transmission_eq_flip, map_eq_ok] at h
  obtain ⟨S', h, rfl⟩ := h
  rw [scatters_flip, scatters_reflection h, fieldOf_swap_eq, eq_comm]

/-! ### Whole devices -/

/-- A layer as handed to `build_scatmat`: modes and depth. -/
structure LayerIn (n : Type) where
  W : Matrix n n ℂ
  V : Matrix n n ℂ
  lam : n → ℂ
  depth : ℝ

/-- Its optical description at wave number `k0`. -/
def LayerIn.toMode (k0 : ℝ) (L : LayerIn n) : ModeLayer n := ⟨L.W, L.V, L.lam, L.depth * k0⟩

theorem fieldChain_append {l l' : List (ModeLayer n)} {F G : Tang n} :
    FieldChain (l ++ l') F G ↔ ∃ K, FieldChain l F K ∧ FieldChain l' K G := by
  induction l generalizing F with
  | nil => simp [FieldChain]
  | cons L l ih =>
    simp only [List.cons_append, FieldChain, ih]
    constructor
    · rintro ⟨K, h1, M, h2, h3⟩; exact ⟨M, ⟨K, h1, h2⟩, h3⟩
    · rintro ⟨M, ⟨K, h1, h2⟩, h3⟩; exact ⟨K, h1, M, h2, h3⟩

theorem chain_iff_fieldChain {W0 V0 : Matrix n n ℂ} {k0 : ℝ} (hW : W0.det ≠ 0) (hV : V0.det ≠ 0)
    {Ls : List (LayerIn n)} {Ss : List (SMat n)}
    (h : List.Forall₂ (fun L S => buildScatmat L.W L.V W0 V0 L.lam L.depth k0 = .ok S) Ls Ss)
    {p q : Port n} :
    Chain Ss p q ↔ FieldChain (Ls.map (LayerIn.toMode k0)) (fieldOf W0 V0 p) (fieldOf W0 V0 q) := by
  induction h generalizing p with
  | nil =>
    simp only [Chain, List.map_nil, FieldChain]
    exact ⟨fun h => by rw [h], fieldOf_injective hW hV⟩
  | cons h1 h2 ih =>
    simp only [Chain, List.map_cons, FieldChain]
    constructor
    · rintro ⟨m, hm, hr⟩
      exact ⟨_, (scatters_buildScatmat h1 p m).1 hm, ih.1 hr⟩
    · rintro ⟨K, hK, hr⟩
      obtain ⟨m, rfl⟩ := fieldOf_surjective hW hV K
      exact ⟨m, (scatters_buildScatmat h1 p m).2 hK, ih.2 hr⟩

theorem device_chain {W0 V0 Wr Vr Wt Vt : Matrix n n ℂ} {k0 : ℝ} {Sref Strans : SMat n}
    (hr : reflectionScatmat W0 V0 Wr Vr = .ok Sref) (ht : transmissionScatmat W0 V0 Wt Vt = .ok Strans)
    {Ls : List (LayerIn n)} {Ss : List (SMat n)}
    (h : List.Forall₂ (fun L S => buildScatmat L.W L.V W0 V0 L.lam L.depth k0 = .ok S) Ls Ss)
    {p q : Port n} :
    Chain (Sref :: (Ss ++ [Strans])) p q ↔
      FieldChain (Ls.map (LayerIn.toMode k0)) (fieldOf Wr Vr p) (fieldOf Wt Vt q) := by
  obtain ⟨A, B, hA, hB, d1, d2, -⟩ := reflectionScatmat_eq_ok.1 hr
  constructor
  · rintro ⟨m, hm, hc⟩
    rw [chain_append] at hc
    obtain ⟨m', hc, hl⟩ := hc
    simp only [Chain, exists_eq_right] at hl
    rw [scatters_reflection hr] at hm
    rw [scatters_transmission ht] at hl
    rw [hm, ← hl]
    exact (chain_iff_fieldChain d1 d2 h).1 hc
  · intro hc
    obtain ⟨m, hm⟩ := fieldOf_surjective d1 d2 (fieldOf Wr Vr p)
    obtain ⟨m', hm'⟩ := fieldOf_surjective d1 d2 (fieldOf Wt Vt q)
    rw [hm, hm'] at hc
    refine ⟨m, (scatters_reflection hr _ _).2 hm, ?_⟩
    rw [chain_append]
    refine ⟨m', (chain_iff_fieldChain d1 d2 h).2 hc, ?_⟩
    simp only [Chain, exists_eq_right]
    exact (scatters_transmission ht _ _).2 hm'.symm

theorem fieldChain_iff_maxwell {Ms : List (ModeLayer n)}
    {PQ : List (Matrix n n ℂ × Matrix n n ℂ × ℝ)}
    (h : List.Forall₂ (fun L M => IsModes M.1 M.2.1 L.W L.V L.lam ∧ L.t = M.2.2 ∧ L.W.det ≠ 0 ∧
      L.V.det ≠ 0) Ms PQ) {F G : Tang n} :
    FieldChain Ms F G ↔ MaxwellChain PQ F G := by
  induction h generalizing F with
  | nil => rfl
  | cons h1 h2 ih =>
    obtain ⟨hm, ht, hW, hV⟩ := h1
    simp only [FieldChain, MaxwellChain, ih, modal_iff_maxwell hW hV hm.1 hm.2, ht]

/-! ### A concrete family for non-vacuity -/

/-- `build_scatmat` succeeds when the layer's modes are those of the gap up to a scalar admittance
`v` and all propagate alike. -/
theorem buildScatmat_ok_scalar {V0 : Matrix n n ℂ} (hV0 : V0.det ≠ 0) {v c : ℂ} (hv : v ≠ 0)
    (h1 : 1 + v⁻¹ ≠ 0) {d k0 : ℝ}
    (h2 : (1 + v⁻¹) ^ 2 ≠ (1 - v⁻¹) ^ 2 * Complex.exp (-c * d * k0) ^ 2) :
    ∃ S, buildScatmat 1 (v • V0) 1 V0 (fun _ => c) d k0 = .ok S := by
  have hinv : (v • V0)⁻¹ * V0 = v⁻¹ • (1 : Matrix n n ℂ) := by
    have : (v • V0)⁻¹ = v⁻¹ • V0⁻¹ := by
      apply Matrix.inv_eq_right_inv
      rw [smul_mul_smul_comm, mul_inv_of_det hV0, mul_inv_cancel₀ hv, one_smul]
    rw [this, Matrix.smul_mul, inv_mul_of_det hV0]
  have hA : (1 : Matrix n n ℂ)⁻¹ * 1 + (v • V0)⁻¹ * V0 = (1 + v⁻¹) • 1 := by
    rw [hinv, inv_one, Matrix.one_mul, add_smul, one_smul]
  have hB : (1 : Matrix n n ℂ)⁻¹ * 1 - (v • V0)⁻¹ * V0 = (1 - v⁻¹) • 1 := by
    rw [hinv, inv_one, Matrix.one_mul, sub_smul, one_smul]
  have hX : propX (fun _ : n => c) (d * k0) = Complex.exp (-c * d * k0) • (1 : Matrix n n ℂ) := by
    rw [propX, ← diagonal_one, ← diagonal_smul]
    congr 1; funext i; simp; ring_nf
  set x := Complex.exp (-c * d * k0)
  set a := 1 + v⁻¹
  set b := 1 - v⁻¹
  have hAi : (a • (1 : Matrix n n ℂ))⁻¹ = a⁻¹ • 1 := by
    apply Matrix.inv_eq_right_inv
    rw [smul_mul_smul_comm, mul_inv_cancel₀ h1, one_smul, Matrix.one_mul]
  have hT : a • (1 : Matrix n n ℂ) - x • 1 * b • 1 * ((a • (1 : Matrix n n ℂ))⁻¹ * x • 1) * b • 1 =
      (a - x * b * (a⁻¹ * x) * b) • 1 := by
    rw [hAi]; simp only [smul_mul_smul_comm, Matrix.one_mul, sub_smul]
  have hdet : ∀ z : ℂ, z ≠ 0 → (z • (1 : Matrix n n ℂ)).det ≠ 0 := fun z hz => by
    rw [det_smul, det_one, mul_one]; exact pow_ne_zero _ hz
  refine ⟨⟨_, _, _, _⟩, buildScatmat_eq_ok.2 ⟨a • 1, b • 1, x • 1, _, hA.symm, hB.symm, hX.symm, rfl,
    by simp, ?_, hdet a h1, ?_, rfl, rfl, rfl, rfl⟩⟩
  · rw [det_smul]; exact mul_ne_zero (pow_ne_zero _ hv) hV0
  · rw [hT]
    apply hdet
    intro h0
    apply h2
    field_simp at h0
    linear_combination h0

/-- One mode: success of `build_scatmat` on 1×1 matrices. -/
theorem buildScatmat_ok_unit {w v w0 v0 c : ℂ} (hw : w ≠ 0) (hv : v ≠ 0)
    (h1 : w⁻¹ * w0 + v⁻¹ * v0 ≠ 0) {d k0 : ℝ}
    (h2 : (w⁻¹ * w0 + v⁻¹ * v0) ^ 2 ≠ (w⁻¹ * w0 - v⁻¹ * v0) ^ 2 * Complex.exp (-c * d * k0) ^ 2) :
    ∃ S, buildScatmat (n := Unit) (w • 1) (v • 1) (w0 • 1) (v0 • 1) (fun _ => c) d k0 = .ok S := by
  have hinv : ∀ z : ℂ, z ≠ 0 → (z • (1 : Matrix Unit Unit ℂ))⁻¹ = z⁻¹ • 1 := fun z hz => by
    apply Matrix.inv_eq_right_inv
    rw [smul_mul_smul_comm, mul_inv_cancel₀ hz, one_smul, Matrix.one_mul]
  have hdet : ∀ z : ℂ, z ≠ 0 → (z • (1 : Matrix Unit Unit ℂ)).det ≠ 0 := fun z hz => by
    rw [det_smul, det_one, mul_one]; exact pow_ne_zero _ hz
  set x := Complex.exp (-c * d * k0) with hx
  have hX : propX (fun _ : Unit => c) (d * k0) = x • (1 : Matrix Unit Unit ℂ) := by
    rw [propX, ← diagonal_one, ← diagonal_smul]
    congr 1; funext i; simp [hx]; ring_nf
  set a := w⁻¹ * w0 + v⁻¹ * v0 with ha
  set b := w⁻¹ * w0 - v⁻¹ * v0 with hb
  have hA : (w • (1 : Matrix Unit Unit ℂ))⁻¹ * w0 • 1 + (v • (1 : Matrix Unit Unit ℂ))⁻¹ * v0 • 1 =
      a • 1 := by
    rw [hinv _ hw, hinv _ hv, smul_mul_smul_comm, smul_mul_smul_comm, Matrix.one_mul, ← add_smul]
  have hB : (w • (1 : Matrix Unit Unit ℂ))⁻¹ * w0 • 1 - (v • (1 : Matrix Unit Unit ℂ))⁻¹ * v0 • 1 =
      b • 1 := by
    rw [hinv _ hw, hinv _ hv, smul_mul_smul_comm, smul_mul_smul_comm, Matrix.one_mul, ← sub_smul]
  have hT : a • (1 : Matrix Unit Unit ℂ) - x • 1 * b • 1 * ((a • (1 : Matrix Unit Unit ℂ))⁻¹ * x • 1) *
      b • 1 = (a - x * b * (a⁻¹ * x) * b) • 1 := by
    rw [hinv _ h1]; simp only [smul_mul_smul_comm, Matrix.one_mul, sub_smul]
  refine ⟨⟨_, _, _, _⟩, buildScatmat_eq_ok.2 ⟨a • 1, b • 1, x • 1, _, hA.symm, hB.symm, hX.symm, rfl,
    hdet _ hw, hdet _ hv, hdet a h1, ?_, rfl, rfl, rfl, rfl⟩⟩
  rw [hT]
  apply hdet
  intro h0
  apply h2
  field_simp at h0
  linear_combination h0

end Khepri
