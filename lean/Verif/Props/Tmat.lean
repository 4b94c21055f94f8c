import Verif.Lemmas.TmatMore
import Verif.Lemmas.TmatOld

/-!
# C43–C51: the T-matrix formulation

Theorems about lattices are for `l` returned by `CartesianLattice(pw, a1, a2, eps_incid, eps_emerg)`; Bloch vectors
are real (`(↑a, ↑b)`) where stated.
-/

namespace Khepri

open Matrix Complex

/-! ## C43: S-matrices and transfer matrices -/

section C43
variable {n : Type} [Fintype n] [DecidableEq n]

/-- **C43.** `matrix_s(T)` relates the amplitudes `u` on the left and `v` on the right exactly when `u = T v`. -/
theorem C43_same {T S : Matrix (n ⊕ n) (n ⊕ n) ℂ} (h : matrixS T = .ok S) (u v : n ⊕ n → ℂ) :
    TScatters S u v ↔ u = T *ᵥ v := matrixS_relates h u v

/-- **C43.** It exists exactly when the forward-to-forward block of `T` is invertible; otherwise it raises. -/
theorem C43_exists (T : Matrix (n ⊕ n) (n ⊕ n) ℂ) :
    (T.toBlocks₁₁.det ≠ 0 → ∃ S, matrixS T = .ok S) ∧ (T.toBlocks₁₁.det = 0 → matrixS T = .error .linAlg) :=
  ⟨fun h => ⟨_, matrixS_eq_ok.2 ⟨h, rfl⟩⟩, matrixS_error⟩

/-- **C43.** It is the only S-matrix that does: a matrix that relates the amplitudes as `T` does is `matrix_s(T)`, which
then exists. -/
theorem C43_unique {T S : Matrix (n ⊕ n) (n ⊕ n) ℂ} (h : ∀ u v, TScatters S u v ↔ u = T *ᵥ v) : matrixS T = .ok S := by
  have hdet : T.toBlocks₁₁.det ≠ 0 := by
    intro h0
    obtain ⟨a, ha, h1⟩ := exists_mulVec_eq_zero_iff.2 h0
    have e := (h (T *ᵥ Sum.elim a 0) (Sum.elim a 0)).2 rfl
    have hz : TScatters S 0 0 := (h 0 0).2 (by simp)
    have hu : T *ᵥ Sum.elim a 0 = Sum.elim (0 : n → ℂ) (T.toBlocks₂₁ *ᵥ a) := by
      conv_lhs => rw [← fromBlocks_toBlocks T]
      rw [fromBlocks_mulVec]
      simp [h1]
    rw [hu] at e
    unfold TScatters at e hz
    apply ha
    have hin : Sum.elim (Sum.elim (0 : n → ℂ) (T.toBlocks₂₁ *ᵥ a) ∘ Sum.inl) (Sum.elim a (0 : n → ℂ) ∘ Sum.inr) = 0 := by
      funext i; rcases i with i | i <;> rfl
    rw [hin, mulVec_zero] at e
    funext i
    exact congrFun e (Sum.inl i)
  obtain ⟨S', h'⟩ := (C43_exists T).1 hdet
  rw [h', tscatters_ext fun u v k => (h u v).2 ((C43_same h' u v).1 k)]

/-- **C43.** Cascading S-matrices is multiplying transfer matrices, errors included. -/
theorem C43_compose {T1 T2 S1 S2 : Matrix (n ⊕ n) (n ⊕ n) ℂ} (h1 : matrixS T1 = .ok S1) (h2 : matrixS T2 = .ok S2) :
    multS S1 S2 = matrixS (T1 * T2) := multS_matrixS h1 h2

/-- **C43.** What `multS` means for any two S-matrices: amplitudes in between match. -/
theorem C43_chain {S1 S2 S : Matrix (n ⊕ n) (n ⊕ n) ℂ} (h : multS S1 S2 = .ok S) (u w : n ⊕ n → ℂ) :
    TScatters S u w ↔ ∃ v, TScatters S1 u v ∧ TScatters S2 v w := multS_chain h u w

/-- **C43.** `multS` is associative, errors included. -/
theorem C43_assoc {A B C X Y : Matrix (n ⊕ n) (n ⊕ n) ℂ} (hX : multS A B = .ok X) (hY : multS B C = .ok Y) :
    multS X C = multS A Y := by
  rw [multS_eq, multS_eq, redheffer_assoc (multS_eq_ok.1 hX) (multS_eq_ok.1 hY)]

/-- Non-vacuity of C43: three transfer matrices with reflection, all S-matrices and both cascades exist. -/
example : ∃ (T : Matrix (Fin 1 ⊕ Fin 1) (Fin 1 ⊕ Fin 1) ℂ) (S X : Matrix (Fin 1 ⊕ Fin 1) (Fin 1 ⊕ Fin 1) ℂ),
    matrixS T = .ok S ∧ S.toBlocks₁₂ ≠ 0 ∧ multS S S = .ok X ∧ ∃ Y, multS X S = .ok Y := by
  let T : Matrix (Fin 1 ⊕ Fin 1) (Fin 1 ⊕ Fin 1) ℂ := fromBlocks !![2] !![1] !![1] !![2]
  have hT : ∀ M : Matrix (Fin 1 ⊕ Fin 1) (Fin 1 ⊕ Fin 1) ℂ, M.toBlocks₁₁.det ≠ 0 → ∃ S, matrixS M = .ok S :=
    fun M h => (C43_exists M).1 h
  have d1 : T.toBlocks₁₁.det ≠ 0 := by simp [T]
  have d2 : (T * T).toBlocks₁₁.det ≠ 0 := by
    simp only [T, fromBlocks_multiply, toBlocks_fromBlocks₁₁, det_fin_one]
    simp [Matrix.add_apply]; norm_num
  have d3 : (T * T * T).toBlocks₁₁.det ≠ 0 := by
    simp only [T, fromBlocks_multiply, toBlocks_fromBlocks₁₁, det_fin_one]
    simp [Matrix.add_apply]; norm_num
  obtain ⟨S, hS⟩ := hT T d1
  obtain ⟨X, hX⟩ := hT _ d2
  obtain ⟨Y, hY⟩ := hT _ d3
  refine ⟨T, S, X, hS, ?_, by rw [C43_compose hS hS, hX], Y, by rw [C43_compose hX hS, hY]⟩
  rw [(matrixS_eq_ok.1 hS).2]
  simp only [T, toBlocks_fromBlocks₁₁, toBlocks_fromBlocks₁₂]
  intro h
  have := congrFun (congrFun h 0) 0
  simp [Matrix.mul_apply] at this

end C43

/-! ## C44: `U`, `Vi` and matched interfaces -/

section C44
variable {l : TLattice} {wl : ℝ} {a b : ℝ}

/-- **C44.** `U` and `Vi` are inverse to each other. -/
theorem C44_inverse {U V : Matrix (TIdx l.shape) (TIdx l.shape) ℂ} (hU : l.U wl (↑a, ↑b) = .ok U)
    (hV : l.V l.epsI wl (↑a, ↑b) = .ok V) : U * V = 1 ∧ V * U = 1 :=
  ⟨TLattice.U_mul_Vi hU hV, TLattice.Vi_mul_U hU hV⟩

/-- **C44.** They exist when no order is grazing and the permittivity is not 0 (nor a negative `float`). -/
theorem C44_exists {kp : ℂ × ℂ} (hw : wl ≠ 0) (he : l.epsI.val ≠ 0) (hr : ∀ r, l.epsI = .float r → 0 ≤ r)
    (hk : ∀ k, flatT l.shape (l.kz l.epsI wl kp) k ≠ 0) :
    (∃ U, l.U wl kp = .ok U) ∧ ∃ V, l.V l.epsI wl kp = .ok V := by
  refine ⟨TLattice.U_exists hw he hk, TLattice.V_exists hw he ?_⟩
  cases h : l.epsI with
  | float r => exact hr r h
  | complex z => trivial

/-- **C44.** A negative `float` permittivity gives `U` but no `Vi`. -/
theorem C44_negative_float {kp : ℂ × ℂ} {r : ℝ} (he : l.epsI = .float r) (hr : r < 0) (hw : wl ≠ 0)
    (hk : ∀ k, flatT l.shape (l.kz l.epsI wl kp) k ≠ 0) :
    (∃ U, l.U wl kp = .ok U) ∧ l.V l.epsI wl kp = .error .nonFinite := by
  have h0 : l.epsI.val ≠ 0 := by rw [he]; simpa [PyNum.val] using hr.ne
  refine ⟨TLattice.U_exists hw h0 hk, ?_⟩
  have hs : csqrt l.epsI.val ≠ 0 := by
    intro h
    apply h0
    rw [← csqrt_sq l.epsI.val, h]
    simp
  unfold TLattice.V
  rw [pyCheck_ok ⟨hw, hs⟩, ok_bind]
  unfold matrixV
  rw [he, npSqrt, if_pos hr, error_bind]

/-- **C44.** Between equal media the interface does nothing: what enters leaves unchanged. -/
theorem C44_matched {S U V : Matrix (TIdx l.shape) (TIdx l.shape) ℂ} (hm : l.epsE = l.epsI)
    (hU : l.U wl (↑a, ↑b) = .ok U) (hV : l.V l.epsI wl (↑a, ↑b) = .ok V)
    (hS : tmatInterface l wl (↑a, ↑b) = .ok S) (u v : TIdx l.shape → ℂ) : TScatters S u v ↔ u = v := by
  rw [tmatInterface, hU, ok_bind, hm, hV, ok_bind, TLattice.U_mul_Vi hU hV, matrixS_one] at hS
  cases hS
  exact tscatters_one

/-- **C44.** A matched interface never raises, and cascading with it changes nothing. -/
theorem C44_neutral {U V : Matrix (TIdx l.shape) (TIdx l.shape) ℂ} (hm : l.epsE = l.epsI)
    (hU : l.U wl (↑a, ↑b) = .ok U) (hV : l.V l.epsI wl (↑a, ↑b) = .ok V) :
    ∃ S, tmatInterface l wl (↑a, ↑b) = .ok S ∧ ∀ M, multS M S = .ok M ∧ multS S M = .ok M := by
  refine ⟨1, ?_, fun M => ⟨multS_one M, one_multS M⟩⟩
  rw [tmatInterface, hU, ok_bind, hm, hV, ok_bind, TLattice.U_mul_Vi hU hV, matrixS_one]

/-- Non-vacuity of C44: any grid of orders of a square lattice in vacuum. -/
example (P : ℕ) : ∃ l U V, TLattice.make (P, P) (1, 0) (0, 1) (.float 1) (.float 1) = .ok l ∧ l.epsE = l.epsI ∧
    l.U 2 (((0 : ℝ) : ℂ), ((0 : ℝ) : ℂ)) = .ok U ∧ l.V l.epsI 2 (((0 : ℝ) : ℂ), ((0 : ℝ) : ℂ)) = .ok V := by
  obtain ⟨l, h, hb⟩ := unit_tlattice (P, P) rfl (.float 1) (.float 1)
  obtain ⟨-, -, -, -, h1, h2⟩ := TLattice.make_fields h
  obtain ⟨⟨U, hU⟩, V, hV⟩ := C44_exists (l := l) (wl := 2) (kp := (0, 0)) two_ne_zero
    (by rw [h1]; simp [PyNum.val]) (by rw [h1]; intro r hr; cases hr; norm_num)
    (by rw [h1]; exact unit_tlattice_kz_ne h hb (Or.inl rfl))
  exact ⟨l, U, V, h, by rw [h1, h2], by simpa using hU, by simpa using hV⟩

end C44

/-! ## C45: slicing -/

section C45
variable {pw : ℕ × ℕ} {a1 a2 : R2} {ei ee : PyNum} {l : TLattice} {jv1 : ℝ → ℝ} {wl : ℝ} {a b : ℝ}
  {islands : List (TShape × ℂ)} {host : ℂ}

/-- **C45.** The result does not depend on the number of slices. -/
theorem C45_slicing (h : TLattice.make pw a1 a2 ei ee = .ok l) (hp : pw.1 = pw.2 ∨ pw.2 = 1) (h0 : 0 < pw.1) {depth : ℝ} {k k' : ℕ}
    {S S' : Matrix (TIdx l.shape) (TIdx l.shape) ℂ}
    (hS : tmatScattering jv1 l islands host wl (↑a, ↑b) depth k = .ok S)
    (hS' : tmatScattering jv1 l islands host wl (↑a, ↑b) depth k' = .ok S') : S = S' := by
  have hs := (TLattice.make_shape_iff h h0).2 (hp.imp_right le_of_eq)
  obtain ⟨U, V, hU, hV, -, -, -, e⟩ := TLattice.layer_S h hs hS
  obtain ⟨U', V', hU', hV', -, -, -, e'⟩ := TLattice.layer_S h hs hS'
  cases hU.symm.trans hU'
  cases hV.symm.trans hV'
  cases e.symm.trans e'
  rfl

/-- **C45.** It is the S-matrix of the transfer matrix of the whole depth (`slicing_pow = 0`). -/
theorem C45_whole (h : TLattice.make pw a1 a2 ei ee = .ok l) (hp : pw.1 = pw.2 ∨ pw.2 = 1) (h0 : 0 < pw.1) {depth : ℝ} {k : ℕ}
    {S : Matrix (TIdx l.shape) (TIdx l.shape) ℂ}
    (hS : tmatScattering jv1 l islands host wl (↑a, ↑b) depth k = .ok S) :
    ∃ T, sliceTransfer jv1 l islands host wl (↑a, ↑b) depth 0 = .ok T ∧ matrixS T = .ok S ∧
      ∀ u v, TScatters S u v ↔ u = T *ᵥ v := by
  have hs := (TLattice.make_shape_iff h h0).2 (hp.imp_right le_of_eq)
  obtain ⟨U, V, hU, hV, -, -, -, e⟩ := TLattice.layer_S h hs hS
  have hS0 := hS
  rw [tmatScattering, bind_eq_ok] at hS0
  obtain ⟨T1, hT1, -⟩ := hS0
  have hT0 : ∃ T, sliceTransfer jv1 l islands host wl (↑a, ↑b) depth 0 = .ok T := by
    unfold sliceTransfer at hT1 ⊢
    simp only [bind_eq_ok] at hT1 ⊢
    obtain ⟨d, hd, eg, heg, ej, hej, U1, hU1, V1, hV1, A, hA, -⟩ := hT1
    exact ⟨_, d, hd, eg, heg, ej, hej, U1, hU1, V1, hV1, A, hA, rfl⟩
  obtain ⟨T, hT⟩ := hT0
  obtain ⟨U', V', hU', hV', -, -, -, hTe⟩ := TLattice.slice_ok h hs hT
  cases hU.symm.trans hU'
  cases hV.symm.trans hV'
  have : matrixS T = .ok S := by
    rw [hTe, pow_zero, div_one, e]
  exact ⟨T, hT, this, fun u v => matrixS_relates this u v⟩

/-- **C45.** Cascading two layers of the same pattern adds their depths, whatever the three slicings. -/
theorem C45_depths (h : TLattice.make pw a1 a2 ei ee = .ok l) (hp : pw.1 = pw.2 ∨ pw.2 = 1) (h0 : 0 < pw.1) {d1 d2 : ℝ} {k1 k2 k : ℕ}
    {S1 S2 S : Matrix (TIdx l.shape) (TIdx l.shape) ℂ}
    (h1 : tmatScattering jv1 l islands host wl (↑a, ↑b) d1 k1 = .ok S1)
    (h2 : tmatScattering jv1 l islands host wl (↑a, ↑b) d2 k2 = .ok S2)
    (hS : tmatScattering jv1 l islands host wl (↑a, ↑b) (d1 + d2) k = .ok S) : multS S1 S2 = .ok S := by
  have hs := (TLattice.make_shape_iff h h0).2 (hp.imp_right le_of_eq)
  obtain ⟨U, V, hU, hV, -, -, -, e1⟩ := TLattice.layer_S h hs h1
  obtain ⟨U2, V2, hU2, hV2, -, -, -, e2⟩ := TLattice.layer_S h hs h2
  obtain ⟨U3, V3, hU3, hV3, -, -, -, e⟩ := TLattice.layer_S h hs hS
  obtain rfl : U = U2 := Except.ok.inj (hU.symm.trans hU2)
  obtain rfl : V = V2 := Except.ok.inj (hV.symm.trans hV2)
  obtain rfl : U = U3 := Except.ok.inj (hU.symm.trans hU3)
  obtain rfl : V = V3 := Except.ok.inj (hV.symm.trans hV3)
  have hVU := TLattice.Vi_mul_U hU hV
  rw [multS_matrixS e1 e2, transfer_add hVU, ← e, ofReal_add]

end C45

/-! ## C46, C47: how orders are numbered -/

section C46
variable {pw : ℕ × ℕ} {a1 a2 : R2} {ei ee : PyNum} {l : TLattice}

/-- **C46.** For a square grid or a single row of orders along `b1`, `gx` and `gy` have the shape `pw` and, in `gx.T.flatten()`, order `k` has the
reciprocal vector `m b1 + n b2` with `(m, n) = coords_from_index(pw, (pw[0]//2, pw[1]//2), k)`. -/
theorem C46_places (h : TLattice.make pw a1 a2 ei ee = .ok l) (hp : pw.1 = pw.2 ∨ pw.2 = 1) (h0 : 0 < pw.1) :
    l.shape = pw ∧ reciproc a1 a2 = .ok l.b ∧ ∀ k : Fin (pw.1 * pw.2),
      flatT pw l.gx k = (coordsFromIndex pw (pw.1 / 2, pw.2 / 2) k).1 * l.b.1.1 + (coordsFromIndex pw (pw.1 / 2, pw.2 / 2) k).2 * l.b.2.1 ∧
      flatT pw l.gy k = (coordsFromIndex pw (pw.1 / 2, pw.2 / 2) k).1 * l.b.1.2 + (coordsFromIndex pw (pw.1 / 2, pw.2 / 2) k).2 * l.b.2.2 := by
  refine ⟨(TLattice.make_shape_iff h h0).2 (hp.imp_right le_of_eq), (TLattice.make_fields h).2.2.1, fun k => ?_⟩
  simp only [flatT, (TLattice.make_gx h _ _).1, (TLattice.make_gx h _ _).2, coordsFromIndex]
  generalize pw.1 / 2 = p, pw.2 / 2 = p', (k : ℕ) % pw.1 = x, (k : ℕ) / pw.1 = y
  push_cast
  constructor <;> ring

/-- **C46.** Distinct positions carry distinct orders. -/
theorem C46_injective (k k' : Fin (pw.1 * pw.2))
    (h : coordsFromIndex pw (pw.1 / 2, pw.2 / 2) k = coordsFromIndex pw (pw.1 / 2, pw.2 / 2) k') : k = k' := by
  simp only [coordsFromIndex, Prod.mk.injEq, sub_left_inj, Nat.cast_inj] at h
  apply Fin.ext
  rw [← Nat.mod_add_div (k : ℕ) pw.1, ← Nat.mod_add_div (k' : ℕ) pw.1, h.1, h.2]

/-- **C46.** `incident(pw, E0, p_pol, s_pol)` excites the order with a null reciprocal vector, going forward, and no
other: `s_pol` in the first slice, `p_pol` in the second. -/
theorem C46_incident (h : TLattice.make pw a1 a2 ei ee = .ok l) {E0 p s : ℂ} {v : TIdx pw → ℂ}
    (hv : tmatIncident pw E0 p s = .ok v) (k : Fin (pw.1 * pw.2)) :
    (flatT pw l.gx k = 0 ∧ flatT pw l.gy k = 0 → v (.inl (.inl k)) = s * E0 ∧ v (.inl (.inr k)) = p * E0) ∧
    (¬(flatT pw l.gx k = 0 ∧ flatT pw l.gy k = 0) → v (.inl (.inl k)) = 0 ∧ v (.inl (.inr k)) = 0) ∧
    v (.inr (.inl k)) = 0 ∧ v (.inr (.inr k)) = 0 := by
  unfold tmatIncident at hv
  simp only [bind_eq_ok, pyCheck_eq_ok] at hv
  obtain ⟨-, -, hv⟩ := hv
  cases hv
  rw [TLattice.g_zero_iff h k]
  refine ⟨fun e => ?_, fun e => ?_, rfl, rfl⟩
  · simp [e]
  · simp [e]

/-- **C46.** It succeeds for every grid of at least one order, and that order exists in the grid. -/
theorem C46_incident_exists (h1 : 0 < pw.1) (h2 : 0 < pw.2) (E0 p s : ℂ) :
    ∃ v, tmatIncident pw E0 p s = .ok v := by
  unfold tmatIncident
  simp only
  rw [pyCheck_ok]
  · exact ⟨_, rfl⟩
  · have h3 : pw.1 * (pw.2 / 2) + pw.1 ≤ pw.1 * pw.2 := by
      rw [← Nat.mul_succ]
      exact Nat.mul_le_mul_left _ (by omega)
    have : pw.1 / 2 < pw.1 := by omega
    omega

/-- **C46.** For every pair of orders `matrix_a` reads the tables at an entry inside the grid, the one at
`G_i - G_j` (the centre exactly when `i = j`). -/
theorem C46_reads (h : TLattice.make pw a1 a2 ei ee = .ok l) (hp : pw.1 = pw.2 ∨ pw.2 = 1) (h0 : 0 < pw.1) :
    ∃ P : Fin (l.shape.1 * l.shape.2) → Fin (l.shape.1 * l.shape.2) → Fin l.q.1 × Fin l.q.2,
      (∀ epsG epsinvG : Fin l.q.1 → Fin l.q.2 → ℂ, readTables l.shape l.q
          ((List.range (l.pw.1 * l.pw.2)).map (coordsFromIndex l.pw (l.shape.1 / 2, l.shape.2 / 2))) epsG epsinvG =
        .ok fun i j => (epsG (P i j).1 (P i j).2, epsinvG (P i j).1 (P i j).2)) ∧
      ∀ i j, l.Gx (P i j).1 (P i j).2 = flatT l.shape l.gx i - flatT l.shape l.gx j ∧
        l.Gy (P i j).1 (P i j).2 = flatT l.shape l.gy i - flatT l.shape l.gy j ∧
        (((P i j).1 : ℕ) = l.q.1 / 2 ∧ ((P i j).2 : ℕ) = l.q.2 / 2 ↔ i = j) :=
  TLattice.readTables_ok h ((TLattice.make_shape_iff h h0).2 (hp.imp_right le_of_eq))

/-- Non-vacuity of C45 and C46: square grids of any size are accepted. -/
example (P : ℕ) (ei ee : PyNum) : ∃ l, TLattice.make (P, P) (1, 0) (0, 1) ei ee = .ok l :=
  let ⟨l, h, _⟩ := unit_tlattice (P, P) rfl ei ee
  ⟨l, h⟩

/-- **C47 (partial).** `gx` and `gy` have the shape `pw` exactly for square grids and for one row of orders along the
second axis.  What is missing: they should have it for every accepted `pw`; the slices use `q[0]` on both axes. -/
theorem C47_partial (h : TLattice.make pw a1 a2 ei ee = .ok l) (h0 : 0 < pw.1) :
    l.shape = pw ↔ pw.1 = pw.2 ∨ pw.2 ≤ 1 := TLattice.make_shape_iff h h0

/-- **C47, counterexample.** 3 × 5 and 5 × 3 orders are accepted; the arrays have shapes (3, 1) and (5, 4). -/
theorem C47_counterexample (ei ee : PyNum) :
    (∃ l, TLattice.make (3, 5) (1, 0) (0, 1) ei ee = .ok l ∧ l.shape = (3, 1)) ∧
    (∃ l, TLattice.make (5, 3) (1, 0) (0, 1) ei ee = .ok l ∧ l.shape = (5, 4)) := by
  constructor
  · obtain ⟨l, h, -⟩ := unit_tlattice (3, 5) rfl ei ee
    exact ⟨l, h, by rw [TLattice.make_shape h]; decide⟩
  · obtain ⟨l, h, -⟩ := unit_tlattice (5, 3) rfl ei ee
    exact ⟨l, h, by rw [TLattice.make_shape h]; decide⟩

end C46

/-! ## C48: two implementations of `matrix_a` -/

/-- **C48.** `matrix_a` and `matrix_a_old` return the same matrix, or raise the same error, for any arrays of any
shape, any tables, wavelength and Bloch vector, with the list of indices built by the callers. -/
theorem C48_same (s q : ℕ × ℕ) (gx gy : ℕ → ℕ → ℝ) (epsG epsinvG : Fin q.1 → Fin q.2 → ℂ) (wl : ℝ) (kp : ℂ × ℂ) :
    matrixAOld s q ((List.range (s.1 * s.2)).map (coordsFromIndex s (s.1 / 2, s.2 / 2))) gx gy epsG epsinvG wl kp =
      matrixA s q ((List.range (s.1 * s.2)).map (coordsFromIndex s (s.1 / 2, s.2 / 2))) gx gy epsG epsinvG wl kp :=
  matrixA_eq_old gx gy epsG epsinvG wl kp

/-- Non-vacuity of C48: both succeed on a square lattice. -/
example (P : ℕ) (hP : 0 < P) (epsG epsinvG : ∀ l : TLattice, Fin l.q.1 → Fin l.q.2 → ℂ) :
    ∃ l A, TLattice.make (P, P) (1, 0) (0, 1) (.float 1) (.float 1) = .ok l ∧
      matrixA l.shape l.q ((List.range (l.pw.1 * l.pw.2)).map (coordsFromIndex l.pw (l.shape.1 / 2, l.shape.2 / 2)))
        l.gx l.gy (epsG l) (epsinvG l) 2 (0, 0) = .ok A := by
  obtain ⟨l, h, -⟩ := unit_tlattice (P, P) rfl (.float 1) (.float 1)
  obtain ⟨Pos, hr, -⟩ := C46_reads h (Or.inl rfl) hP
  exact ⟨l, _, h, TLattice.matrixA_ok two_ne_zero (hr _ _)⟩

/-! ## C49: z-wave-numbers -/

/-- **C49.** `kz² = eps k0² - |k + G|²`. -/
theorem C49_square (gx gy : ℝ) (eps : ℂ) (wl : ℝ) (kp : ℂ × ℂ) :
    computeKz gx gy eps wl kp ^ 2 =
      eps * ((2 * Real.pi / wl : ℝ) : ℂ) ^ 2 - ((‖kp.1 + gx‖ ^ 2 + ‖kp.2 + gy‖ ^ 2 : ℝ) : ℂ) := by
  have := computeKz_sq gx gy eps wl kp
  rw [this, ← Complex.ofReal_pow (uNorm _), uNorm, Real.sq_sqrt (by positivity)]

/-- **C49.** Waves decay forward, or propagate forward when they do not decay. -/
theorem C49_branch (gx gy : ℝ) (eps : ℂ) (wl : ℝ) (kp : ℂ × ℂ) :
    0 ≤ (computeKz gx gy eps wl kp).im ∧
      ((computeKz gx gy eps wl kp).im = 0 → 0 ≤ (computeKz gx gy eps wl kp).re) :=
  computeKz_branch gx gy eps wl kp

/-- **C49.** There is only one such number. -/
theorem C49_unique (gx gy : ℝ) (eps : ℂ) (wl : ℝ) (kp : ℂ × ℂ) {w : ℂ}
    (h1 : w ^ 2 = eps * ((2 * Real.pi / wl : ℝ) : ℂ) ^ 2 - ((‖kp.1 + gx‖ ^ 2 + ‖kp.2 + gy‖ ^ 2 : ℝ) : ℂ)) (h2 : 0 ≤ w.im)
    (h3 : w.im = 0 → 0 ≤ w.re) : w = computeKz gx gy eps wl kp := by
  obtain ⟨b1, b2⟩ := C49_branch gx gy eps wl kp
  have hsq := h1.trans (C49_square gx gy eps wl kp).symm
  rcases sq_eq_sq_iff_eq_or_eq_neg.1 hsq with e | e
  · exact e
  · have i1 : w.im = -(computeKz gx gy eps wl kp).im := by rw [e, neg_im]
    have i2 : w.re = -(computeKz gx gy eps wl kp).re := by rw [e, neg_re]
    have hw : w.im = 0 := by linarith
    have hc : (computeKz gx gy eps wl kp).im = 0 := by linarith
    apply Complex.ext
    · linarith [h3 hw, b2 hc]
    · linarith

/-! ## C50: fluxes -/

section C50
variable {l : TLattice} {wl : ℝ}

/-- **C50 (partial).** `R` and `T` are not negative and `R + T + A = 1`.  What is missing: they are computed with the
z-wave-numbers of normal incidence, not with those of the `kp` passed in. -/
theorem C50_partial {pin pout : TIdx l.shape → ℂ} {kp : ℂ × ℂ} {R T A : ℝ}
    (h : computeFluxes l wl pin pout kp = .ok (R, T, A)) : 0 ≤ R ∧ 0 ≤ T ∧ R + T + A = 1 := by
  obtain ⟨-, hR, hT, hA⟩ := TLattice.fluxes_eq h
  refine ⟨by rw [hR]; positivity, by rw [hT]; positivity, by rw [hA]; ring⟩

/-- **C50 (partial).** Scaling the excitation (and so what comes out) changes nothing, errors included. -/
theorem C50_scale_partial {pin pout : TIdx l.shape → ℂ} {c : ℂ} (hc : c ≠ 0) (kp : ℂ × ℂ) :
    computeFluxes l wl (c • pin) (c • pout) kp = computeFluxes l wl pin pout kp :=
  TLattice.fluxes_scale hc kp

/-- The z-wave-number of a propagating order. -/
theorem computeKz_pos {gx gy eps wl a r : ℝ} (hr : 0 < r)
    (h : eps * (2 * Real.pi / wl) ^ 2 - ((a + gx) ^ 2 + gy ^ 2) = r ^ 2) :
    computeKz gx gy eps wl (a, 0) = r := by
  refine (C49_unique gx gy eps wl (a, 0) ?_ (by simp) (fun _ => by simpa using hr.le)).symm
  have e1 : ‖(a : ℂ) + gx‖ ^ 2 = (a + gx) ^ 2 := by
    rw [← ofReal_add, Complex.norm_real, Real.norm_eq_abs, sq_abs]
  have e2 : ‖(0 : ℂ) + gy‖ ^ 2 = gy ^ 2 := by
    rw [zero_add, Complex.norm_real, Real.norm_eq_abs, sq_abs]
  simp only [e1, e2]
  rw [← Complex.ofReal_pow, ← h]
  push_cast
  ring

/-- **C50, counterexample.** One order, from vacuum to permittivity 4, in-plane wave number `√3 π` at wavelength 1
(60 degrees).  A unit amplitude leaves for a unit amplitude: the code says `T = 2`, the currents of that Bloch vector
give `√13`. -/
theorem C50_counterexample : ∃ (l : TLattice) (pin pout : TIdx l.shape → ℂ) (kp : ℂ × ℂ) (R T A : ℝ),
    TLattice.make (1, 1) (1, 0) (0, 1) (.float 1) (.float 4) = .ok l ∧
    computeFluxes l 1 pin pout kp = .ok (R, T, A) ∧ T = 2 ∧
    ‖(∑ k, (computeCurrents l 1 pin pout kp).2.2 k) / ∑ k, (computeCurrents l 1 pin pout kp).1 k‖ = Real.sqrt 13 := by
  obtain ⟨l, h, hb⟩ := unit_tlattice (1, 1) rfl (.float 1) (.float 4)
  obtain ⟨-, -, -, har, hei, hee⟩ := TLattice.make_fields h
  have hs : l.shape = (1, 1) := (TLattice.make_shape_iff h one_pos).2 (Or.inl rfl)
  have hpi := Real.pi_pos
  have hcard : ((Finset.univ : Finset (Fin (l.shape.1 * l.shape.2))).card : ℂ) = 1 := by
    rw [Finset.card_univ, Fintype.card_fin, hs]; simp
  have hk0 : ∀ k : Fin (l.shape.1 * l.shape.2), (k : ℕ) = 0 := by
    intro k
    have h1 : l.shape.1 = 1 := by rw [hs]
    have h2 : l.shape.2 = 1 := by rw [hs]
    have := k.2
    simp only [h1, h2] at this
    omega
  have hg : l.gx 0 0 = 0 ∧ l.gy 0 0 = 0 := by
    rw [(TLattice.make_gx h 0 0).1, (TLattice.make_gx h 0 0).2]
    simp
  have hmu := mu0c_pos
  set q : ℂ := ((l.area / (2 * mu0c * (2 * Real.pi) / 1) : ℝ) : ℂ) with hq
  have hq0 : q ≠ 0 := by
    rw [hq, Complex.ofReal_ne_zero, har]
    have : unitCellArea ((1, 0) : R2) (0, 1) ≠ 0 := by simp [unitCellArea]
    positivity
  -- the currents for an in-plane wave number `a` along x, when both orders propagate
  have cur : ∀ (x rI rE : ℝ), 0 < rI → 0 < rE → 1 * (2 * Real.pi / 1) ^ 2 - ((x + 0) ^ 2 + 0 ^ 2) = rI ^ 2 →
      4 * (2 * Real.pi / 1) ^ 2 - ((x + 0) ^ 2 + 0 ^ 2) = rE ^ 2 →
      (∑ k, (computeCurrents l 1 (fun _ => 1) (fun _ => 1) (x, 0)).1 k = q * rI * 2) ∧
      (∑ k, (computeCurrents l 1 (fun _ => 1) (fun _ => 1) (x, 0)).2.2 k = q * rE * 2) := by
    intro x rI rE hI hE eI eE
    have kI : ∀ k, flatT l.shape (l.kz l.epsI 1 (x, 0)) k = rI := by
      intro k
      simp only [flatT, TLattice.kz, hk0 k, Nat.zero_mod, Nat.zero_div, hg.1, hg.2, hei, PyNum.val]
      exact computeKz_pos hI eI
    have kE : ∀ k, flatT l.shape (l.kz l.epsE 1 (x, 0)) k = rE := by
      intro k
      simp only [flatT, TLattice.kz, hk0 k, Nat.zero_mod, Nat.zero_div, hg.1, hg.2, hee, PyNum.val]
      exact computeKz_pos hE eE
    have fe := TLattice.floatEps_pos
    have im4 : |l.epsE.val.im| < floatEps := by rw [hee]; simpa [PyNum.val] using fe
    constructor
    · simp only [computeCurrents, kI, Complex.ofReal_im, abs_zero, fe.le, if_true, Finset.sum_const, nsmul_eq_mul, hcard]
      rw [← hq]
      norm_num
    · simp only [computeCurrents, kE, Complex.ofReal_im, abs_zero, fe, im4, and_self, if_true, Finset.sum_const,
        nsmul_eq_mul, hcard]
      rw [← hq]
      norm_num
  obtain ⟨n1, n2⟩ := cur 0 (2 * Real.pi) (4 * Real.pi) (by positivity) (by positivity) (by ring) (by ring)
  have s3 : Real.sqrt 3 ^ 2 = 3 := Real.sq_sqrt (by norm_num)
  have s13 : Real.sqrt 13 ^ 2 = 13 := Real.sq_sqrt (by norm_num)
  obtain ⟨o1, o2⟩ := cur (Real.sqrt 3 * Real.pi) Real.pi (Real.sqrt 13 * Real.pi) (by positivity) (by positivity)
    (by rw [add_zero, mul_pow, s3]; ring) (by rw [add_zero, mul_pow, s3, mul_pow, s13]; ring)
  have hpc : (Real.pi : ℂ) ≠ 0 := by exact_mod_cast hpi.ne'
  have hflux : ∃ R A, computeFluxes l 1 (fun _ => 1) (fun _ => 1) (((Real.sqrt 3 * Real.pi : ℝ) : ℂ), 0) = .ok (R, 2, A) := by
    unfold computeFluxes
    have e0 : (((0 : ℝ) : ℂ), (0 : ℂ)) = ((0, 0) : ℂ × ℂ) := by simp
    rw [e0] at n1 n2
    rcases hcc : computeCurrents l 1 (fun _ => 1) (fun _ => 1) (0, 0) with ⟨j1, j2, j3⟩
    rw [hcc] at n1 n2
    simp only at n1 n2 ⊢
    rw [pyCheck_ok one_ne_zero, ok_bind, pyCheck_ok (by rw [n1]; simp [hq0, hpi.ne']), ok_bind, n1, n2]
    have : ‖q * ((4 * Real.pi : ℝ) : ℂ) * 2 / (q * ((2 * Real.pi : ℝ) : ℂ) * 2)‖ = 2 := by
      have : q * ((4 * Real.pi : ℝ) : ℂ) * 2 / (q * ((2 * Real.pi : ℝ) : ℂ) * 2) = 2 := by
        push_cast
        field_simp
        norm_num
      rw [this]
      norm_num
    rw [this]
    exact ⟨_, _, rfl⟩
  obtain ⟨R, A, hfl⟩ := hflux
  refine ⟨l, _, _, _, R, 2, A, h, hfl, rfl, ?_⟩
  rw [o1, o2]
  have : q * ((Real.sqrt 13 * Real.pi : ℝ) : ℂ) * 2 / (q * (Real.pi : ℂ) * 2) = ((Real.sqrt 13 : ℝ) : ℂ) := by
    push_cast
    field_simp
  rw [this, Complex.norm_real, Real.norm_eq_abs, abs_of_nonneg (Real.sqrt_nonneg _)]

end C50

/-! ## C51: `scattering_identity` -/

section C51
variable {n : Type} [Fintype n] [DecidableEq n]

/-- **C51, counterexample.** Cascading `scattering_identity(pw)` never returns the other S-matrix, on either side and
for any S-matrix. -/
theorem C51_counterexample [Nonempty n] (S : Matrix (n ⊕ n) (n ⊕ n) ℂ) :
    multS (tmatIdentity n) S ≠ .ok S ∧ multS S (tmatIdentity n) ≠ .ok S := by
  constructor
  · intro h
    have h' := redheffer_eq_ok.1 (multS_eq_ok.1 h)
    obtain ⟨hd, he⟩ := h'
    have e1 := congrArg SMat.s11 he
    have e2 := congrArg SMat.s12 he
    have e3 := congrArg SMat.s21 he
    simp only [toSMat, tmatIdentity, redhefferVal, toBlocks_fromBlocks₁₁, toBlocks_fromBlocks₁₂, toBlocks_fromBlocks₂₁,
      toBlocks_fromBlocks₂₂] at hd e1 e2 e3
    simp at e1 e2 e3
    simp_all
  · intro h
    have h' := redheffer_eq_ok.1 (multS_eq_ok.1 h)
    obtain ⟨hd, he⟩ := h'
    have e1 := congrArg SMat.s11 he
    have e2 := congrArg SMat.s22 he
    have e3 := congrArg SMat.s21 he
    simp only [toSMat, tmatIdentity, redhefferVal, toBlocks_fromBlocks₁₁, toBlocks_fromBlocks₁₂, toBlocks_fromBlocks₂₁,
      toBlocks_fromBlocks₂₂] at hd e1 e2 e3
    simp at e1 e2 e3
    simp_all

/-- **C51 (partial).** The neutral S-matrix of `multS` is the identity matrix, and only it.  What is missing:
`scattering_identity` returns another matrix. -/
theorem C51_partial (E : Matrix (n ⊕ n) (n ⊕ n) ℂ) :
    (E = 1 ↔ ∀ S, multS E S = .ok S) ∧ (E = 1 ↔ ∀ S, multS S E = .ok S) := by
  refine ⟨⟨fun h S => h ▸ one_multS S, fun h => ?_⟩, ⟨fun h S => h ▸ multS_one S, fun h => ?_⟩⟩
  · have := (h 1).symm.trans (multS_one E)
    exact (Except.ok.inj this).symm
  · have := (h 1).symm.trans (one_multS E)
    exact (Except.ok.inj this).symm

end C51

end Khepri
