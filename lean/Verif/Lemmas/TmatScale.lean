import Verif.Model.EzSpectrum
import Verif.Lemmas.SymmetryForms
import Verif.Lemmas.TmatDevice
import Verif.Lemmas.Ez

/-! Enlarged T-matrix lattices. -/

set_option linter.unusedSectionVars false

namespace Khepri

open Matrix Complex

/-! ### Waves -/

theorem uNorm_div {s : ℝ} (hs : 0 < s) (u : ℂ × ℂ) : uNorm (u.1 / s, u.2 / s) = uNorm u / s := by
  unfold uNorm
  rw [norm_div, norm_div, Complex.norm_real, Real.norm_of_nonneg hs.le,
    show (‖u.1‖ / s) ^ 2 + (‖u.2‖ / s) ^ 2 = (‖u.1‖ ^ 2 + ‖u.2‖ ^ 2) / s ^ 2 by field_simp,
    Real.sqrt_div' _ (by positivity), Real.sqrt_sq hs.le]

theorem computeKz_scale {s : ℝ} (hs : 0 < s) (gx gy : ℝ) (eps : ℂ) (wl : ℝ) (kp : ℂ × ℂ) :
    computeKz (gx / s) (gy / s) eps (s * wl) (kp.1 / s, kp.2 / s) = computeKz gx gy eps wl kp / s := by
  have hsc : (s : ℂ) ≠ 0 := by exact_mod_cast hs.ne'
  obtain ⟨b1, b2⟩ := computeKz_branch gx gy eps wl kp
  obtain ⟨c1, c2⟩ := computeKz_branch (gx / s) (gy / s) eps (s * wl) (kp.1 / s, kp.2 / s)
  have hsq : computeKz (gx / s) (gy / s) eps (s * wl) (kp.1 / s, kp.2 / s) ^ 2 = (computeKz gx gy eps wl kp / s) ^ 2 := by
    rw [div_pow, computeKz_sq, computeKz_sq]
    have := uNorm_div hs (kp.1 + gx, kp.2 + gy)
    simp only [ofReal_div, ← add_div] at this ⊢
    rw [this]
    push_cast
    rw [← div_div, div_right_comm]
    field_simp
  rcases sq_eq_sq_iff_eq_or_eq_neg.1 hsq with e | e
  · exact e
  · have i1 := congrArg Complex.im e
    have i2 := congrArg Complex.re e
    rw [neg_im, div_ofReal_im] at i1
    rw [neg_re, div_ofReal_re] at i2
    have h0 : 0 ≤ (computeKz gx gy eps wl kp).im / s := by positivity
    have h1 : (computeKz gx gy eps wl kp).im = 0 := by
      have : (computeKz gx gy eps wl kp).im / s = 0 := by linarith
      simpa [hs.ne'] using this
    have h2 : (computeKz (gx / s) (gy / s) eps (s * wl) (kp.1 / s, kp.2 / s)).im = 0 := by rw [i1, h1]; simp
    have h3 : 0 ≤ (computeKz gx gy eps wl kp).re / s := div_nonneg (b2 h1) hs.le
    have h4 := c2 h2
    have h5 : (computeKz gx gy eps wl kp).re = 0 := by
      have : (computeKz gx gy eps wl kp).re / s = 0 := by linarith
      simpa [hs.ne'] using this
    have h6 : computeKz gx gy eps wl kp = 0 := Complex.ext h5 h1
    rw [e, h6]; simp

theorem planarDir_scale {s : ℝ} (hs : 0 < s) {u : ℂ × ℂ} (h : u = 0 ∨ (1 / 2 ^ 52 ≤ uNorm u ^ 2 ∧
    1 / 2 ^ 52 ≤ uNorm (u.1 / s, u.2 / s) ^ 2)) : planarDir (u.1 / s, u.2 / s) = planarDir u := by
  have hsc : (s : ℂ) ≠ 0 := by exact_mod_cast hs.ne'
  rcases h with rfl | ⟨h1, h2⟩
  · simp only [Prod.fst_zero, Prod.snd_zero, zero_div]; rfl
  · rw [planarDir, planarDir, if_neg (not_lt.2 h1), if_neg (not_lt.2 h2), uNorm_div hs]
    push_cast
    simp only [div_div_div_cancel_right₀ hsc]

namespace TLattice
variable {l : TLattice} {wl : ℝ} {kp : ℂ × ℂ} {s : ℝ}

/-- The lattice of the enlarged cell. -/
noncomputable def enlarge (s : ℝ) (l : TLattice) : TLattice :=
  { l with
    b := ((l.b.1.1 / s, l.b.1.2 / s), (l.b.2.1 / s, l.b.2.2 / s))
    area := s ^ 2 * l.area
    Gx := fun i j => l.Gx i j / s
    Gy := fun i j => l.Gy i j / s }

theorem make_enlarge (hs : 0 < s) (pw : ℕ × ℕ) (a1 a2 : R2) (ei ee : PyNum) :
    TLattice.make pw (s * a1.1, s * a1.2) (s * a2.1, s * a2.2) ei ee = (TLattice.make pw a1 a2 ei ee).map (enlarge s) := by
  have hdet : s * a1.1 * (s * a2.2) - s * a1.2 * (s * a2.1) = s ^ 2 * (a1.1 * a2.2 - a1.2 * a2.1) := by ring
  unfold TLattice.make reciproc
  simp only [hdet]
  by_cases h : a1.1 * a2.2 - a1.2 * a2.1 = 0
  · simp [h, throw, throwThe, MonadExceptOf.throw, bind, Except.bind, Except.map]
  · have h' : s ^ 2 * (a1.1 * a2.2 - a1.2 * a2.1) ≠ 0 := mul_ne_zero (by positivity) h
    rw [if_neg h, if_neg h']
    simp only [pure, Except.pure, bind, Except.bind]
    cases gridSize pw with
    | error e => rfl
    | ok q =>
      simp only
      cases gridCenter q.2 with
      | error e => rfl
      | ok c =>
        simp only [Except.map, Except.ok.injEq, enlarge, TLattice.mk.injEq, true_and]
        refine ⟨?_, ?_, ?_, ?_⟩
        · ext <;> simp only <;> field_simp
        · unfold unitCellArea
          simp only [hdet, abs_mul, abs_of_pos (pow_pos hs 2)]
        · funext i j; field_simp
        · funext i j; field_simp

theorem kz_enlarge (hs : 0 < s) (eps : PyNum) (i j : ℕ) :
    (l.enlarge s).kz eps (s * wl) (kp.1 / s, kp.2 / s) i j = l.kz eps wl kp i j / s :=
  computeKz_scale hs _ _ _ _ _

/-- Directions of orders are the same on both lattices. -/
def SameDirs (s : ℝ) (l : TLattice) (kp : ℂ × ℂ) : Prop := l.ClearDirs kp ∧ (l.enlarge s).ClearDirs (kp.1 / s, kp.2 / s)

theorem dir_enlarge (hs : 0 < s) (hd : SameDirs s l kp) (k : Fin (l.shape.1 * l.shape.2)) :
    planarDir ((kp.1 / s) + ((l.gx (k % l.shape.1) (k / l.shape.1) / s : ℝ) : ℂ),
      (kp.2 / s) + ((l.gy (k % l.shape.1) (k / l.shape.1) / s : ℝ) : ℂ)) =
      planarDir (kp.1 + l.gx (k % l.shape.1) (k / l.shape.1), kp.2 + l.gy (k % l.shape.1) (k / l.shape.1)) := by
  have e : ((kp.1 / s) + ((l.gx (k % l.shape.1) (k / l.shape.1) / s : ℝ) : ℂ),
      (kp.2 / s) + ((l.gy (k % l.shape.1) (k / l.shape.1) / s : ℝ) : ℂ)) =
      ((kp.1 + l.gx (k % l.shape.1) (k / l.shape.1)) / s, (kp.2 + l.gy (k % l.shape.1) (k / l.shape.1)) / s) := by
    push_cast; rw [add_div, add_div]
  rw [e]
  refine planarDir_scale hs (u := (kp.1 + l.gx (k % l.shape.1) (k / l.shape.1), kp.2 + l.gy (k % l.shape.1) (k / l.shape.1))) ?_
  rcases hd.1 k with h | h
  · exact Or.inl h
  · rcases hd.2 k with h' | h'
    · left
      have h'' : ((kp.1 / s) + ((l.gx (k % l.shape.1) (k / l.shape.1) / s : ℝ) : ℂ),
        (kp.2 / s) + ((l.gy (k % l.shape.1) (k / l.shape.1) / s : ℝ) : ℂ)) = 0 := h'
      rw [e, Prod.ext_iff] at h''
      have hsc : (s : ℂ) ≠ 0 := by exact_mod_cast hs.ne'
      simpa [Prod.ext_iff, hsc] using h''
    · right
      refine ⟨h, ?_⟩
      have h'' : 1 / 2 ^ 52 ≤ uNorm ((kp.1 / s) + ((l.gx (k % l.shape.1) (k / l.shape.1) / s : ℝ) : ℂ),
        (kp.2 / s) + ((l.gy (k % l.shape.1) (k / l.shape.1) / s : ℝ) : ℂ)) ^ 2 := h'
      rwa [e] at h''

theorem eta_enlarge (hs : 0 < s) (hd : SameDirs s l kp) (k : Fin (l.shape.1 * l.shape.2)) :
    flatT l.shape ((l.enlarge s).eta (kp.1 / s, kp.2 / s)) k = flatT l.shape (l.eta kp) k := by
  have := dir_enlarge hs hd k
  simp only [flatT, eta, computeEta]
  exact congrArg (fun u : ℂ × ℂ => (u.2, -u.1)) this

theorem mu_enlarge (hs : 0 < s) (hd : SameDirs s l kp) (eps : PyNum) (k : Fin (l.shape.1 * l.shape.2)) :
    flatT l.shape ((l.enlarge s).mu eps (s * wl) (kp.1 / s, kp.2 / s)) k = flatT l.shape (l.mu eps wl kp) k := by
  have h := dir_enlarge hs hd k
  have hsc : (s : ℂ) ≠ 0 := by exact_mod_cast hs.ne'
  simp only [flatT, mu, computeMu]
  rw [kz_enlarge hs]
  have e : ∀ z : ℂ, z / s / (csqrt eps.val * (2 * Real.pi : ℝ) / (s * wl : ℝ)) = z / (csqrt eps.val * (2 * Real.pi : ℝ) / wl) := by
    intro z
    push_cast
    field_simp
  rw [e]
  exact congrArg (fun u : ℂ × ℂ => (l.kz eps wl kp (k % l.shape.1) (k / l.shape.1) / (csqrt eps.val * (2 * Real.pi : ℝ) / wl) * u.1,
    l.kz eps wl kp (k % l.shape.1) (k / l.shape.1) / (csqrt eps.val * (2 * Real.pi : ℝ) / wl) * u.2)) h

theorem U_enlarge (hs : 0 < s) (hd : SameDirs s l kp) :
    (l.enlarge s).U (s * wl) (kp.1 / s, kp.2 / s) = l.U wl kp := by
  have hsc : (s : ℂ) ≠ 0 := by exact_mod_cast hs.ne'
  show (do
    pyCheck (s * wl ≠ 0) .nonFinite
    matrixU l.shape ((l.enlarge s).kz l.epsI (s * wl) (kp.1 / s, kp.2 / s)) ((l.enlarge s).eta (kp.1 / s, kp.2 / s))
      ((l.enlarge s).mu l.epsI (s * wl) (kp.1 / s, kp.2 / s)) l.epsI.val (s * wl)) = _
  unfold U matrixU
  simp only [eta_enlarge hs hd, mu_enlarge hs hd]
  have hk : ∀ k : Fin (l.shape.1 * l.shape.2), flatT l.shape ((l.enlarge s).kz l.epsI (s * wl) (kp.1 / s, kp.2 / s)) k =
      flatT l.shape (l.kz l.epsI wl kp) k / s := fun k => kz_enlarge hs _ _ _
  simp only [hk]
  have c1 : (s * wl ≠ 0) ↔ (wl ≠ 0) := by simp [hs.ne']
  have c2 : (∀ k : Fin (l.shape.1 * l.shape.2), flatT l.shape (l.kz l.epsI wl kp) k / s ≠ 0) ↔
      ∀ k, flatT l.shape (l.kz l.epsI wl kp) k ≠ 0 := by simp [hsc]
  have c3 : ∀ k : Fin (l.shape.1 * l.shape.2), csqrt l.epsI.val * Real.pi / ((s * wl : ℝ) : ℂ) / (flatT l.shape (l.kz l.epsI wl kp) k / s) =
      csqrt l.epsI.val * Real.pi / wl / flatT l.shape (l.kz l.epsI wl kp) k := by
    intro k
    push_cast
    rw [div_div, div_div]
    congr 1
    field_simp
  simp only [c1, c2, c3]

theorem V_enlarge (hs : 0 < s) (hd : SameDirs s l kp) (eps : PyNum) :
    (l.enlarge s).V eps (s * wl) (kp.1 / s, kp.2 / s) = l.V eps wl kp := by
  show (do
    pyCheck (s * wl ≠ 0 ∧ csqrt eps.val ≠ 0) .nonFinite
    matrixV l.shape ((l.enlarge s).eta (kp.1 / s, kp.2 / s))
      ((l.enlarge s).mu eps (s * wl) (kp.1 / s, kp.2 / s)) eps) = _
  unfold V matrixV
  simp only [eta_enlarge hs hd, mu_enlarge hs hd]
  have c1 : (s * wl ≠ 0) ↔ (wl ≠ 0) := by simp [hs.ne']
  simp only [c1]

/-- A shape of the enlarged cell. -/
def _root_.Khepri.TShape.enlarge (s : ℝ) : TShape → TShape
  | .uniform => .uniform
  | .shape sh => .shape (sh.scale s)

/-- No order of the table is within the cut-off of `transform_disc`, on either lattice. -/
def ClearTable (s : ℝ) (l : TLattice) : Prop := ∀ i j, i < l.q.1 → j < l.q.2 →
  ClearOf (l.Gx i j, l.Gy i j) ∧ ClearOf (l.Gx i j / s, l.Gy i j / s)

theorem transform_enlarge {jv1 : ℝ → ℝ} (hs : 0 < s) (hc : ClearTable s l) (sh : TShape) :
    (l.enlarge s).transform jv1 (sh.enlarge s) = l.transform jv1 sh := by
  cases sh with
  | uniform => rfl
  | shape sh =>
    show (pyFinM fun i : Fin l.q.1 => pyFinM fun j : Fin l.q.2 =>
      transformShape jv1 (sh.scale s) (l.Gx i j / s, l.Gy i j / s) (s ^ 2 * l.area)) = _
    simp only [transform]
    congr 1
    funext i
    congr 1
    funext j
    exact transformShape_scale hs sh (g := (l.Gx i j, l.Gy i j)) (hc i j i.2 j.2).1 (hc i j i.2 j.2).2 _

theorem matrixA_scale (hs : 0 < s) (sh q : ℕ × ℕ) (indices : List (ℤ × ℤ)) (gx gy : ℕ → ℕ → ℝ)
    (epsG epsinvG : Fin q.1 → Fin q.2 → ℂ) :
    matrixA sh q indices (fun i j => gx i j / s) (fun i j => gy i j / s) epsG epsinvG (s * wl) (kp.1 / s, kp.2 / s) =
      (matrixA sh q indices gx gy epsG epsinvG wl kp).map fun A => (1 / s : ℂ) • A := by
  have hsc : (s : ℂ) ≠ 0 := by exact_mod_cast hs.ne'
  unfold matrixA
  have c1 : (s * wl ≠ 0) ↔ (wl ≠ 0) := by simp [hs.ne']
  simp only [c1]
  by_cases hw : wl ≠ 0
  · rw [pyCheck_ok hw, ok_bind]
    have hwc : (wl : ℂ) ≠ 0 := by exact_mod_cast hw
    cases readTables sh q indices epsG epsinvG with
    | error e => rfl
    | ok tab =>
      simp only [bind, Except.bind, pure, Except.pure, Except.map, Except.ok.injEq, fromBlocks_smul, smul_zero]
      have hpi : (Real.pi : ℂ) ≠ 0 := by exact_mod_cast Real.pi_ne_zero
      have hmu : (mu0c : ℂ) ≠ 0 := by exact_mod_cast mu0c_pos.ne'
      congr 1
      all_goals
        congr 1
        all_goals
          ext i j
          simp only [flatT, Matrix.sub_apply, Matrix.add_apply, Matrix.neg_apply, Matrix.smul_apply, of_apply, diagonal_apply, smul_eq_mul]
          push_cast
          first
            | (split_ifs <;> field_simp <;> ring)
            | field_simp
  · rw [pyCheck_err hw]
    rfl

theorem sliceTransfer_enlarge {jv1 : ℝ → ℝ} (hs : 0 < s) (hc : ClearTable s l) (hd : SameDirs s l kp)
    (islands : List (TShape × ℂ)) (host : ℂ) (depth : ℝ) (slicing : ℕ) :
    sliceTransfer jv1 (l.enlarge s) (islands.map fun d => (d.1.enlarge s, d.2)) host (s * wl) (kp.1 / s, kp.2 / s) (s * depth) slicing =
      sliceTransfer jv1 l islands host wl kp depth slicing := by
  have hsc : (s : ℂ) ≠ 0 := by exact_mod_cast hs.ne'
  have hU := U_enlarge (wl := wl) hs hd
  have hV := V_enlarge (wl := wl) hs hd l.epsI
  have hA := fun eg ei => matrixA_scale (kp := kp) (wl := wl) hs l.shape l.q
    ((List.range (l.pw.1 * l.pw.2)).map (coordsFromIndex l.pw (l.shape.1 / 2, l.shape.2 / 2))) l.gx l.gy eg ei
  unfold sliceTransfer
  have hdata : ((islands.map fun d => (d.1.enlarge s, d.2)).mapM fun isl : TShape × ℂ => do
        let t ← (l.enlarge s).transform jv1 isl.1
        return (t, isl.2)) = (islands.mapM fun isl : TShape × ℂ => do
        let t ← l.transform jv1 isl.1
        return (t, isl.2)) := by
    rw [List.mapM_map]
    congr 1
    funext isl
    simp only [Function.comp, transform_enlarge hs hc]
    rfl
  rw [hdata]
  show ((islands.mapM fun isl : TShape × ℂ => do
        let t ← l.transform jv1 isl.1
        return (t, isl.2)).bind fun data => (epsilonG l.q data host false).bind fun eg => (epsilonG l.q data host true).bind fun ei =>
      ((l.enlarge s).U (s * wl) (kp.1 / s, kp.2 / s)).bind fun U : Matrix (TIdx l.shape) (TIdx l.shape) ℂ =>
      ((l.enlarge s).V l.epsI (s * wl) (kp.1 / s, kp.2 / s)).bind fun Vi : Matrix (TIdx l.shape) (TIdx l.shape) ℂ =>
      (matrixA l.shape l.q ((List.range (l.pw.1 * l.pw.2)).map (coordsFromIndex l.pw (l.shape.1 / 2, l.shape.2 / 2)))
        (fun i j => l.gx i j / s) (fun i j => l.gy i j / s) eg ei (s * wl) (kp.1 / s, kp.2 / s)).bind fun A =>
      .ok (U * NormedSpace.exp (-(((s * depth / 2 ^ slicing : ℝ) : ℂ) • A)) * Vi)) = _
  rw [hU, hV]
  simp only [hA]
  congr 1
  funext data
  congr 1
  funext eg
  congr 1
  funext ei
  congr 1
  funext U
  congr 1
  funext V
  cases matrixA l.shape l.q ((List.range (l.pw.1 * l.pw.2)).map (coordsFromIndex l.pw (l.shape.1 / 2, l.shape.2 / 2)))
    l.gx l.gy eg ei wl kp with
  | error e => rfl
  | ok A =>
    simp only [Except.map, Except.bind, pure, Except.pure]
    congr 4
    rw [smul_smul]
    congr 1
    push_cast
    field_simp

theorem tmatScattering_enlarge {jv1 : ℝ → ℝ} (hs : 0 < s) (hc : ClearTable s l) (hd : SameDirs s l kp)
    (islands : List (TShape × ℂ)) (host : ℂ) (depth : ℝ) (slicing : ℕ) :
    tmatScattering jv1 (l.enlarge s) (islands.map fun d => (d.1.enlarge s, d.2)) host (s * wl) (kp.1 / s, kp.2 / s) (s * depth) slicing =
      tmatScattering jv1 l islands host wl kp depth slicing := by
  have h := sliceTransfer_enlarge (jv1 := jv1) (wl := wl) hs hc hd islands host depth slicing
  exact congrArg (fun T : Py (Matrix (TIdx l.shape) (TIdx l.shape) ℂ) => T.bind fun T => (matrixS T).bind fun S => doubling slicing S) h

theorem tmatInterface_enlarge (hs : 0 < s) (hd : SameDirs s l kp) :
    tmatInterface (l.enlarge s) (s * wl) (kp.1 / s, kp.2 / s) = tmatInterface l wl kp := by
  have hU := U_enlarge (wl := wl) hs hd
  have hV := V_enlarge (wl := wl) hs hd l.epsE
  show (((l.enlarge s).U (s * wl) (kp.1 / s, kp.2 / s)).bind fun U =>
    ((l.enlarge s).V l.epsE (s * wl) (kp.1 / s, kp.2 / s)).bind fun Ve => matrixS (U * Ve)) = _
  rw [hU, hV]
  rfl

/-- The same orders are taken for propagating on both lattices. -/
def SameGrazing (s : ℝ) (l : TLattice) (eps : PyNum) (wl : ℝ) : Prop :=
  l.NonGrazing eps wl (0, 0) ∧ (l.enlarge s).NonGrazing eps (s * wl) (0, 0)

theorem computeFluxes_enlarge (hs : 0 < s) (hI : SameGrazing s l l.epsI wl) (hE : SameGrazing s l l.epsE wl)
    (pin pout : TIdx l.shape → ℂ) (kp kp' : ℂ × ℂ) :
    computeFluxes (l.enlarge s) (s * wl) pin pout kp' = computeFluxes l wl pin pout kp := by
  have hsc : (s : ℂ) ≠ 0 := by exact_mod_cast hs.ne'
  have hz : ((0 : ℂ) / (s : ℂ), (0 : ℂ) / (s : ℂ)) = ((0, 0) : ℂ × ℂ) := by simp
  have hk : ∀ eps (k : Fin (l.shape.1 * l.shape.2)), flatT l.shape ((l.enlarge s).kz eps (s * wl) (0, 0)) k =
      flatT l.shape (l.kz eps wl (0, 0)) k / s := fun eps k => by
    have := kz_enlarge (l := l) (wl := wl) (kp := (0, 0)) hs eps (k % l.shape.1) (k / l.shape.1)
    rw [hz] at this
    exact this
  have him : ∀ eps, SameGrazing s l eps wl → ∀ k : Fin (l.shape.1 * l.shape.2),
      (|(flatT l.shape ((l.enlarge s).kz eps (s * wl) (0, 0)) k).im| ≤ floatEps ↔ |(flatT l.shape (l.kz eps wl (0, 0)) k).im| ≤ floatEps) ∧
      (|(flatT l.shape ((l.enlarge s).kz eps (s * wl) (0, 0)) k).im| < floatEps ↔ |(flatT l.shape (l.kz eps wl (0, 0)) k).im| < floatEps) := by
    intro eps h k
    have hp := floatEps_pos
    have e : (flatT l.shape ((l.enlarge s).kz eps (s * wl) (0, 0)) k).im = (flatT l.shape (l.kz eps wl (0, 0)) k).im / s := by
      rw [hk, div_ofReal_im]
    rcases h.1 k with h1 | h1
    · rw [e, h1]; simp
    · have h2 : floatEps < |(flatT l.shape ((l.enlarge s).kz eps (s * wl) (0, 0)) k).im| := by
        rcases h.2 k with h2 | h2
        · have h2' : (flatT l.shape ((l.enlarge s).kz eps (s * wl) (0, 0)) k).im = 0 := h2
          rw [e] at h2'
          have : (flatT l.shape (l.kz eps wl (0, 0)) k).im = 0 := by simpa [hs.ne'] using h2'
          rw [this] at h1
          simp at h1
          linarith
        · exact h2
      exact ⟨⟨fun h => absurd h (not_le.2 h2), fun h => absurd h (not_le.2 h1)⟩,
        ⟨fun h => absurd h (not_lt.2 h2.le), fun h => absurd h (not_lt.2 h1.le)⟩⟩
  have hq : ∀ z x : ℂ, ((s ^ 2 * l.area / (2 * mu0c * (2 * Real.pi) / (s * wl)) : ℝ) : ℂ) * (z / s) * x =
      (s : ℂ) ^ 2 * (((l.area / (2 * mu0c * (2 * Real.pi) / wl) : ℝ) : ℂ) * z * x) := by
    intro z x
    push_cast
    rw [← div_div (2 * (mu0c : ℂ) * (2 * Real.pi)), div_div_eq_mul_div, div_div_eq_mul_div, div_div_eq_mul_div]
    field_simp
  have hcur : computeCurrents (l.enlarge s) (s * wl) pin pout (0, 0) =
      ((fun k => (s : ℂ) ^ 2 * (computeCurrents l wl pin pout (0, 0)).1 k),
        (fun k => (s : ℂ) ^ 2 * (computeCurrents l wl pin pout (0, 0)).2.1 k),
        (fun k => (s : ℂ) ^ 2 * (computeCurrents l wl pin pout (0, 0)).2.2 k)) := by
    refine Prod.ext (funext fun k : Fin (l.shape.1 * l.shape.2) => ?_)
      (Prod.ext (funext fun k : Fin (l.shape.1 * l.shape.2) => ?_) (funext fun k : Fin (l.shape.1 * l.shape.2) => ?_))
    · show (if |(flatT l.shape ((l.enlarge s).kz l.epsI (s * wl) (0, 0)) k).im| ≤ floatEps then
        ((s ^ 2 * l.area / (2 * mu0c * (2 * Real.pi) / (s * wl)) : ℝ) : ℂ) * flatT l.shape ((l.enlarge s).kz l.epsI (s * wl) (0, 0)) k *
        _ else 0) = (s : ℂ) ^ 2 * (if _ then _ else _)
      rw [mul_ite, mul_zero]
      refine if_congr ((him _ hI k).1) ?_ rfl
      rw [hk, hq]
      rfl
    · show (if |(flatT l.shape ((l.enlarge s).kz l.epsI (s * wl) (0, 0)) k).im| ≤ floatEps then
        ((s ^ 2 * l.area / (2 * mu0c * (2 * Real.pi) / (s * wl)) : ℝ) : ℂ) * flatT l.shape ((l.enlarge s).kz l.epsI (s * wl) (0, 0)) k *
        _ else 0) = (s : ℂ) ^ 2 * (if _ then _ else _)
      rw [mul_ite, mul_zero]
      refine if_congr ((him _ hI k).1) ?_ rfl
      rw [hk, hq]
      rfl
    · show (if |l.epsE.val.im| < floatEps ∧ |(flatT l.shape ((l.enlarge s).kz l.epsE (s * wl) (0, 0)) k).im| < floatEps then
        ((s ^ 2 * l.area / (2 * mu0c * (2 * Real.pi) / (s * wl)) : ℝ) : ℂ) * flatT l.shape ((l.enlarge s).kz l.epsE (s * wl) (0, 0)) k *
        _ else 0) = (s : ℂ) ^ 2 * (if _ then _ else _)
      rw [mul_ite, mul_zero]
      refine if_congr (and_congr_right fun _ => (him _ hE k).2) ?_ rfl
      rw [hk, hq]
      rfl
  have c1 : (s * wl ≠ 0) ↔ (wl ≠ 0) := by simp [hs.ne']
  show (do
    pyCheck (s * wl ≠ 0) .nonFinite
    let c := computeCurrents (l.enlarge s) (s * wl) pin pout (0, 0)
    pyCheck (∑ k : Fin (l.shape.1 * l.shape.2), c.1 k ≠ 0) .nonFinite
    return (‖(∑ k : Fin (l.shape.1 * l.shape.2), c.2.1 k) / ∑ k : Fin (l.shape.1 * l.shape.2), c.1 k‖,
      ‖(∑ k : Fin (l.shape.1 * l.shape.2), c.2.2 k) / ∑ k : Fin (l.shape.1 * l.shape.2), c.1 k‖,
      1 - ‖(∑ k : Fin (l.shape.1 * l.shape.2), c.2.1 k) / ∑ k : Fin (l.shape.1 * l.shape.2), c.1 k‖ -
        ‖(∑ k : Fin (l.shape.1 * l.shape.2), c.2.2 k) / ∑ k : Fin (l.shape.1 * l.shape.2), c.1 k‖)) = _
  rw [hcur]
  have hs2 : (s : ℂ) ^ 2 ≠ 0 := pow_ne_zero 2 hsc
  simp only [← Finset.mul_sum, mul_div_mul_left _ _ hs2, c1, mul_ne_zero_iff, hs2, ne_eq, not_false_eq_true, true_and]
  rfl

end TLattice

end Khepri
