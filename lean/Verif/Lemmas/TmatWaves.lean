import Verif.Lemmas.TmatLayer

/-!
Plane waves in the T-matrix formulation: the columns of `V` are the waves of a uniform medium.
-/

set_option linter.unusedSectionVars false

namespace Khepri

open Matrix Complex

section Uniform
variable {g : Type} [Fintype g] [DecidableEq g]

/-- One order in a uniform medium. -/
noncomputable def uniformBlock (u : ℂ × ℂ) (eps c1 : ℂ) : Matrix (Fin 4) (Fin 4) ℂ :=
  !![0, 0, I * mu0c / c1 * u.1 * (1 / eps) * u.2, I * mu0c * c1 - I * mu0c / c1 * u.1 * (1 / eps) * u.1;
     0, 0, -(I * mu0c * c1) + I * mu0c / c1 * u.2 * (1 / eps) * u.2, -(I * mu0c / c1 * u.2 * (1 / eps) * u.1);
     -(I / mu0c / c1) * (u.1 * u.2), I / mu0c / c1 * u.1 ^ 2 - I / mu0c * c1 * eps, 0, 0;
     -(I / mu0c / c1) * u.2 ^ 2 + I / mu0c * c1 * eps, I / mu0c / c1 * (u.1 * u.2), 0, 0]

theorem tsystem_uniform (u : g → ℂ × ℂ) (eps c1 : ℂ) :
    tsystem u (diagonal fun _ => eps) (diagonal fun _ => 1 / eps) c1 = diagBlocks fun k => uniformBlock (u k) eps c1 := by
  have hd : ∀ a b c : g → ℂ, (of fun i j => a i * diagonal (fun _ => 1 / eps) i j * b j) =
      diagonal fun k => a k * (1 / eps) * b k := by
    intro a b _
    ext i j
    by_cases h : i = j
    · subst h; simp
    · simp [h]
  have hz : (0 : Matrix g g ℂ) = diagonal fun _ => 0 := by simp
  have hzz : (0 : Matrix (g ⊕ g) (g ⊕ g) ℂ) = fromBlocks 0 0 0 0 := by simp
  have e1 := hd (fun k => I * mu0c / c1 * (u k).1) (fun k => (u k).2) 0
  have e2 := hd (fun k => I * mu0c / c1 * (u k).1) (fun k => (u k).1) 0
  have e3 := hd (fun k => I * mu0c / c1 * (u k).2) (fun k => (u k).2) 0
  have e4 := hd (fun k => I * mu0c / c1 * (u k).2) (fun k => (u k).1) 0
  simp only [tsystem, e1, e2, e3, e4, diagonal_add, diagonal_sub, diagonal_neg, ← diagonal_smul, diagBlocks, uniformBlock, hzz, hz]
  rfl

/-- A plane wave in a uniform medium. -/
theorem uniformBlock_mul {x y rho kz r k0 : ℂ} (h1 : x ^ 2 + y ^ 2 = 1) (h2 : kz ^ 2 = r ^ 2 * k0 ^ 2 - rho ^ 2)
    (hr : r ≠ 0) (hk : k0 ≠ 0) :
    uniformBlock (rho * x, rho * y) (r ^ 2) k0 * TLattice.vBlock x y (kz / (r * k0)) (r / mu0c) =
      TLattice.vBlock x y (kz / (r * k0)) (r / mu0c) * diagonal ![I * kz, I * kz, -(I * kz), -(I * kz)] := by
  have hm : (mu0c : ℂ) ≠ 0 := by exact_mod_cast mu0c_pos.ne'
  generalize hmm : (mu0c : ℂ) = m at *
  ext i j
  fin_cases i <;> fin_cases j <;>
    simp [uniformBlock, TLattice.vBlock, Matrix.mul_apply, Fin.sum_univ_four, diagonal_apply, hmm]
  all_goals field_simp
  all_goals first
    | ring1
    | linear_combination x * rho ^ 2 * h1 + x * h2
    | linear_combination y * rho ^ 2 * h1 + y * h2
    | linear_combination -(x * rho ^ 2) * h1 - x * h2
    | linear_combination -(y * rho ^ 2) * h1 - y * h2

end Uniform

theorem computeKz_sq (gx gy : ℝ) (eps : ℂ) (wl : ℝ) (kp : ℂ × ℂ) :
    computeKz gx gy eps wl kp ^ 2 = eps * (2 * Real.pi / wl : ℝ) ^ 2 - (uNorm (kp.1 + gx, kp.2 + gy) : ℂ) ^ 2 := by
  unfold computeKz
  simp only
  split_ifs
  · rw [neg_sq, csqrt_sq]
  · rw [csqrt_sq]

namespace TLattice
variable {l : TLattice} {wl : ℝ} {kp : ℂ × ℂ}

/-- Orders whose direction is not that of a vanishing in-plane vector by default. -/
def ClearDirs (l : TLattice) (kp : ℂ × ℂ) : Prop :=
  ∀ k, l.wave kp k = 0 ∨ 1 / 2 ^ 52 ≤ uNorm (l.wave kp k) ^ 2

theorem wave_eq {k : Fin (l.shape.1 * l.shape.2)} (h : l.wave kp k = 0 ∨ 1 / 2 ^ 52 ≤ uNorm (l.wave kp k) ^ 2) :
    l.wave kp k = (uNorm (l.wave kp k) * (l.dir kp k).1, uNorm (l.wave kp k) * (l.dir kp k).2) := by
  rcases h with h | h
  · rw [h]; simp [uNorm]; rfl
  · have h0 : (uNorm (l.wave kp k) : ℂ) ≠ 0 := by
      intro h0
      have : uNorm (l.wave kp k) = 0 := by exact_mod_cast h0
      rw [this] at h
      norm_num at h
    have hd : l.dir kp k = ((l.wave kp k).1 / uNorm (l.wave kp k), (l.wave kp k).2 / uNorm (l.wave kp k)) := by
      have : l.dir kp k = planarDir (l.wave kp k) := rfl
      rw [this, planarDir, if_neg (not_lt.2 h)]
    rw [hd]
    simp only [mul_div_cancel₀ _ h0]

/-- The columns of `V` are waves of the uniform medium. -/
theorem tsystem_V {eps : PyNum} {V : Matrix (TIdx l.shape) (TIdx l.shape) ℂ} {a b : ℝ}
    (hV : l.V eps wl (↑a, ↑b) = .ok V) (hc : l.ClearDirs (↑a, ↑b)) :
    tsystem (l.wave (↑a, ↑b)) (diagonal fun _ => eps.val) (diagonal fun _ => 1 / eps.val) ((2 * Real.pi / wl : ℝ) : ℂ) * V =
      V * diagBlocks fun k => diagonal ![I * flatT l.shape (l.kz eps wl (↑a, ↑b)) k, I * flatT l.shape (l.kz eps wl (↑a, ↑b)) k,
        -(I * flatT l.shape (l.kz eps wl (↑a, ↑b)) k), -(I * flatT l.shape (l.kz eps wl (↑a, ↑b)) k)] := by
  obtain ⟨h1, h2, rfl⟩ := V_ok hV
  have hwl : (wl : ℂ) ≠ 0 := by exact_mod_cast h1
  rw [tsystem_uniform, diagBlocks_mul, diagBlocks_mul]
  congr 1
  funext k
  have hw := wave_eq (hc k)
  have key := uniformBlock_mul (x := (l.dir (↑a, ↑b) k).1) (y := (l.dir (↑a, ↑b) k).2)
    (rho := uNorm (l.wave (↑a, ↑b) k)) (kz := flatT l.shape (l.kz eps wl (↑a, ↑b)) k) (r := csqrt eps.val)
    (k0 := ((2 * Real.pi / wl : ℝ) : ℂ)) ?_ ?_ h2 ?_
  · rw [csqrt_sq, ← hw] at key
    have hc : l.cosz eps wl (↑a, ↑b) k = flatT l.shape (l.kz eps wl (↑a, ↑b)) k / (csqrt eps.val * ((2 * Real.pi / wl : ℝ) : ℂ)) := by
      rw [cosz]; push_cast; rw [mul_div_assoc]
    rw [hc]
    exact key
  · refine planarDir_unit (a + flatT l.shape l.gx k) (b + flatT l.shape l.gy k) ?_
    simp
  · rw [csqrt_sq]
    exact computeKz_sq _ _ _ _ _
  · have : (2 * Real.pi / wl : ℝ) ≠ 0 := div_ne_zero (by positivity) h1
    exact_mod_cast this

end TLattice

/-! ### Existence -/

section Exists
variable {n : Type} [Fintype n] [DecidableEq n]

theorem doubling_eq {U V A : Matrix (n ⊕ n) (n ⊕ n) ℂ} (hVU : V * U = 1) : ∀ {k : ℕ} {d : ℂ} {S : Matrix (n ⊕ n) (n ⊕ n) ℂ},
    matrixS (U * NormedSpace.exp (-(d • A)) * V) = .ok S →
    (∀ j ≤ k, (U * NormedSpace.exp (-((2 ^ j * d) • A)) * V).toBlocks₁₁.det ≠ 0) →
    doubling k S = matrixS (U * NormedSpace.exp (-((2 ^ k * d) • A)) * V)
  | 0, d, S, h, _ => by rw [pow_zero, one_mul, h]; rfl
  | k + 1, d, S, h, hall => by
    have e : U * NormedSpace.exp (-(d • A)) * V * (U * NormedSpace.exp (-(d • A)) * V) =
        U * NormedSpace.exp (-((2 * d) • A)) * V := by
      rw [two_mul, exp_neg_add]
      calc _ = U * NormedSpace.exp (-(d • A)) * (V * U) * NormedSpace.exp (-(d • A)) * V := by
            simp only [Matrix.mul_assoc]
        _ = _ := by rw [hVU]; simp only [Matrix.mul_assoc, Matrix.mul_one]
    have h1 := hall 1 (by omega)
    rw [pow_one] at h1
    have h2 := matrixS_eq_ok.2 ⟨h1, rfl⟩
    rw [doubling, multS_matrixS h h, e, h2, ok_bind,
      doubling_eq (k := k) (d := 2 * d) hVU h2 fun j hj => by
        have := hall (j + 1) (by omega)
        rwa [show (2 : ℂ) ^ (j + 1) * d = 2 ^ j * (2 * d) by ring] at this,
      show (2 : ℂ) ^ (k + 1) * d = 2 ^ k * (2 * d) by ring]

/-- A diagonal transfer matrix. -/
theorem matrixS_diagonal (a b : n → ℂ) (ha : ∀ i, a i ≠ 0) :
    matrixS (diagonal (Sum.elim a b)) = .ok (diagonal (Sum.elim (fun i => (a i)⁻¹) b)) := by
  have e : diagonal (Sum.elim a b) = fromBlocks (diagonal a) 0 0 (diagonal b) := (fromBlocks_diagonal a b).symm
  rw [e]
  refine matrixS_eq_ok.2 ⟨?_, ?_⟩
  · rw [toBlocks_fromBlocks₁₁, det_diagonal]
    exact Finset.prod_ne_zero_iff.2 fun i _ => ha i
  · simp only [toBlocks_fromBlocks₁₁, toBlocks_fromBlocks₁₂, toBlocks_fromBlocks₂₁, toBlocks_fromBlocks₂₂, Matrix.mul_zero,
      Matrix.zero_mul, add_zero]
    rw [← fromBlocks_diagonal]
    congr 1
    refine (Matrix.inv_eq_left_inv ?_).symm
    rw [diagonal_mul_diagonal, ← diagonal_one]
    congr 1
    funext i
    exact inv_mul_cancel₀ (ha i)

end Exists

theorem diagBlocks_diagonal {g : Type} [Fintype g] [DecidableEq g] (a b c d : g → ℂ) :
    diagBlocks (fun k => diagonal ![a k, b k, c k, d k]) = diagonal (Sum.elim (Sum.elim a b) (Sum.elim c d)) := by
  rw [← fromBlocks_diagonal, ← fromBlocks_diagonal, ← fromBlocks_diagonal]
  simp [diagBlocks]

namespace TLattice
variable {pw : ℕ × ℕ} {a1 a2 : R2} {ei ee : PyNum} {l : TLattice} {jv1 : ℝ → ℝ} {wl : ℝ} {kp : ℂ × ℂ}

/-- The conversion matrices exist. -/
theorem U_exists (hw : wl ≠ 0) (he : l.epsI.val ≠ 0) (hk : ∀ k, flatT l.shape (l.kz l.epsI wl kp) k ≠ 0) :
    ∃ U, l.U wl kp = .ok U := by
  have h2 : csqrt l.epsI.val ≠ 0 := fun h => he (by rw [← csqrt_sq l.epsI.val, h]; simp)
  rw [TLattice.U, pyCheck_ok hw, ok_bind, matrixU, pyCheck_ok h2, ok_bind]
  simp only [pyCheck_ok hk, ok_bind]
  exact ⟨_, rfl⟩

/-- Numbers with a square root in numpy. -/
def Rooted : PyNum → Prop
  | .float r => 0 ≤ r
  | .complex _ => True

theorem V_exists {eps : PyNum} (hw : wl ≠ 0) (he : eps.val ≠ 0) (hr : Rooted eps) : ∃ V, l.V eps wl kp = .ok V := by
  have h2 : csqrt eps.val ≠ 0 := fun h => he (by rw [← csqrt_sq eps.val, h]; simp)
  have h3 : npSqrt eps = .ok (csqrt eps.val) := by
    cases eps with
    | float r => rw [npSqrt, if_neg (not_lt.2 hr)]; rfl
    | complex z => rfl
  rw [TLattice.V, pyCheck_ok ⟨hw, h2⟩, ok_bind, matrixV, h3, ok_bind]
  exact ⟨_, rfl⟩

theorem epsilonG_exists {q : ℕ × ℕ} {data : List ((Fin q.1 → Fin q.2 → ℂ) × ℂ)} {host : ℂ} (inverse : Bool)
    (h0 : host ≠ 0) (h1 : ∀ d ∈ data, d.2 ≠ 0) (hq : 0 < q.1 ∧ 0 < q.2) : ∃ t, epsilonG q data host inverse = .ok t := by
  rw [epsilonG]
  simp only
  rw [pyCheck_ok (fun _ => ⟨h0, h1⟩), ok_bind, pyCheck_ok hq, ok_bind]
  exact ⟨_, rfl⟩

theorem slice_exists (h : TLattice.make pw a1 a2 ei ee = .ok l) (hs : l.shape = pw) (h0 : 0 < pw.1 ∧ 0 < pw.2)
    {islands : List (TShape × ℂ)} {host : ℂ} (hh : host ≠ 0) (hi : ∀ d ∈ islands, d.2 ≠ 0)
    (ht : ∀ d ∈ islands, ∃ t, l.transform jv1 d.1 = .ok t) (hw : wl ≠ 0) (he : l.epsI.val ≠ 0) (hr : Rooted l.epsI)
    (hk : ∀ k, flatT l.shape (l.kz l.epsI wl kp) k ≠ 0) (depth : ℝ) (k : ℕ) :
    ∃ T, sliceTransfer jv1 l islands host wl kp depth k = .ok T := by
  obtain ⟨U, hU⟩ := U_exists hw he hk
  obtain ⟨V, hV⟩ := V_exists (l := l) (kp := kp) hw he hr
  have hdata : ∃ data, (islands.mapM fun isl => do
      let t ← l.transform jv1 isl.1
      return (t, isl.2) : Py (List ((Fin l.q.1 → Fin l.q.2 → ℂ) × ℂ))) = .ok data ∧ ∀ d ∈ data, d.2 ≠ 0 := by
    clear hU hV
    induction islands with
    | nil => exact ⟨[], rfl, by simp⟩
    | cons s ss ih =>
      obtain ⟨t, ht'⟩ := ht s (List.mem_cons_self ..)
      obtain ⟨ds, hds, hz⟩ := ih (fun d hd => hi d (List.mem_cons_of_mem _ hd)) (fun d hd => ht d (List.mem_cons_of_mem _ hd))
      refine ⟨(t, s.2) :: ds, ?_, ?_⟩
      · rw [List.mapM_cons, ht', ok_bind, hds]; rfl
      · intro d hd
        rcases List.mem_cons.1 hd with rfl | hd
        · exact hi s (List.mem_cons_self ..)
        · exact hz d hd
  obtain ⟨data, hdata, hz⟩ := hdata
  have hq : 0 < l.q.1 ∧ 0 < l.q.2 := by rw [(make_fields h).2.1]; simp only; omega
  obtain ⟨eg, heg⟩ := epsilonG_exists (q := l.q) (data := data) false hh hz hq
  obtain ⟨eig, heig⟩ := epsilonG_exists (q := l.q) (data := data) true hh hz hq
  obtain ⟨P, hP, -⟩ := readTables_ok h hs
  have hA := matrixA_ok (l := l) (kp := kp) hw (hP eg eig)
  simp only [TLattice.indices] at hA
  rw [sliceTransfer, hdata, ok_bind, heg, ok_bind, heig, ok_bind, hU, ok_bind, hV, ok_bind]
  simp only [hA, ok_bind]
  exact ⟨_, rfl⟩

end TLattice

end Khepri
