import Verif.Lemmas.TmatS
import Verif.Lemmas.Modes
import Verif.Lemmas.Py
import Verif.Lemmas.Expansion

/-!
The change of basis between polarisation amplitudes and tangential fields.
-/

set_option linter.unusedSectionVars false

namespace Khepri

open Matrix Complex

section Blocks
variable {g : Type} [Fintype g] [DecidableEq g]

theorem diagBlocks_mul (a b : g → Matrix (Fin 4) (Fin 4) ℂ) :
    diagBlocks a * diagBlocks b = diagBlocks fun i => a i * b i := by
  simp only [diagBlocks, fromBlocks_multiply, diagonal_mul_diagonal, fromBlocks_add, diagonal_add]
  simp only [Matrix.mul_apply, Fin.sum_univ_four, add_assoc]

theorem diagBlocks_one : diagBlocks (fun _ : g => (1 : Matrix (Fin 4) (Fin 4) ℂ)) = 1 := by
  simp [diagBlocks, ← fromBlocks_one]

theorem diagBlocks_injective {a b : g → Matrix (Fin 4) (Fin 4) ℂ} (h : diagBlocks a = diagBlocks b) : a = b := by
  funext i
  have e : ∀ r c, diagBlocks a r c = diagBlocks b r c := fun r c => congrFun (congrFun h r) c
  ext r c
  fin_cases r <;> fin_cases c
  · simpa [diagBlocks] using e (.inl (.inl i)) (.inl (.inl i))
  · simpa [diagBlocks] using e (.inl (.inl i)) (.inl (.inr i))
  · simpa [diagBlocks] using e (.inl (.inl i)) (.inr (.inl i))
  · simpa [diagBlocks] using e (.inl (.inl i)) (.inr (.inr i))
  · simpa [diagBlocks] using e (.inl (.inr i)) (.inl (.inl i))
  · simpa [diagBlocks] using e (.inl (.inr i)) (.inl (.inr i))
  · simpa [diagBlocks] using e (.inl (.inr i)) (.inr (.inl i))
  · simpa [diagBlocks] using e (.inl (.inr i)) (.inr (.inr i))
  · simpa [diagBlocks] using e (.inr (.inl i)) (.inl (.inl i))
  · simpa [diagBlocks] using e (.inr (.inl i)) (.inl (.inr i))
  · simpa [diagBlocks] using e (.inr (.inl i)) (.inr (.inl i))
  · simpa [diagBlocks] using e (.inr (.inl i)) (.inr (.inr i))
  · simpa [diagBlocks] using e (.inr (.inr i)) (.inl (.inl i))
  · simpa [diagBlocks] using e (.inr (.inr i)) (.inl (.inr i))
  · simpa [diagBlocks] using e (.inr (.inr i)) (.inr (.inl i))
  · simpa [diagBlocks] using e (.inr (.inr i)) (.inr (.inr i))

end Blocks

theorem mu0c_pos : 0 < mu0c := by unfold mu0c; positivity

theorem uv_block {x y c d hU hV : ℂ} (h1 : 2 * (d * c) = 1) (h2 : hU * hV = 1) (h3 : x ^ 2 + y ^ 2 = 1) :
    !![d * (c * y), -(d * (c * x)), -hU * (d * -x), hU * (d * y);
       d * -x, -(d * y), hU * (d * (c * y)), -hU * (d * (c * x));
       d * (c * y), -(d * (c * x)), hU * (d * -x), -hU * (d * y);
       -(d * -x), d * y, hU * (d * (c * y)), -hU * (d * (c * x))] *
    !![y, -(c * x), y, c * x;
       -x, -(c * y), -x, c * y;
       hV * (c * x), hV * y, -hV * (c * x), hV * y;
       hV * (c * y), hV * -x, -hV * (c * y), hV * -x] = 1 := by
  ext i j
  fin_cases i <;> fin_cases j <;> simp [Matrix.mul_apply, Fin.sum_univ_four] <;>
    first
      | ring1
      | linear_combination (d * c * (1 + hU * hV)) * h3 + d * c * h2 + h1
      | linear_combination (d * c * (x ^ 2 + y ^ 2)) * h2
      | linear_combination -(d * c * (x ^ 2 + y ^ 2)) * h2

theorem planarDir_unit {u : ℂ × ℂ} (a b : ℝ) (h : u = (↑a, ↑b)) :
    (planarDir u).1 ^ 2 + (planarDir u).2 ^ 2 = 1 := by
  subst h
  unfold planarDir
  split_ifs with hn
  · simp
  · have hu : uNorm (↑a, ↑b) = Real.sqrt (a ^ 2 + b ^ 2) := by simp [uNorm]
    have hs : Real.sqrt (a ^ 2 + b ^ 2) ^ 2 = a ^ 2 + b ^ 2 := Real.sq_sqrt (by positivity)
    have h0 : Real.sqrt (a ^ 2 + b ^ 2) ≠ 0 := by
      intro h0
      rw [hu, h0] at hn
      norm_num at hn
    rw [hu]
    have h0' : (Real.sqrt (a ^ 2 + b ^ 2) : ℂ) ≠ 0 := by exact_mod_cast h0
    have hs' : (Real.sqrt (a ^ 2 + b ^ 2) : ℂ) ^ 2 = a ^ 2 + b ^ 2 := by exact_mod_cast hs
    simp only [div_pow, hs']
    rw [← add_div, div_self]
    rw [← hs']
    exact pow_ne_zero 2 h0'

namespace TLattice
variable {l : TLattice} {wl : ℝ} {kp : ℂ × ℂ}

/-- The blocks of `V` for a permittivity `eps` (value of the square root `root`). -/
noncomputable def vBlock (x y c hV : ℂ) : Matrix (Fin 4) (Fin 4) ℂ :=
  !![y, -(c * x), y, c * x;
     -x, -(c * y), -x, c * y;
     hV * (c * x), hV * y, -hV * (c * x), hV * y;
     hV * (c * y), hV * -x, -hV * (c * y), hV * -x]

/-- The in-plane direction of an order. -/
noncomputable def dir (l : TLattice) (kp : ℂ × ℂ) (k : Fin (l.shape.1 * l.shape.2)) : ℂ × ℂ :=
  planarDir (kp.1 + flatT l.shape l.gx k, kp.2 + flatT l.shape l.gy k)

/-- The cosine of an order in the medium `eps`. -/
noncomputable def cosz (l : TLattice) (eps : PyNum) (wl : ℝ) (kp : ℂ × ℂ) (k : Fin (l.shape.1 * l.shape.2)) : ℂ :=
  flatT l.shape (l.kz eps wl kp) k / (csqrt eps.val * (2 * Real.pi : ℝ) / wl)

theorem npSqrt_ok {eps : PyNum} {r : ℂ} (h : npSqrt eps = .ok r) : r = csqrt eps.val := by
  cases eps with
  | float x =>
    simp only [npSqrt] at h
    split_ifs at h
    cases h; rfl
  | complex z => cases h; rfl

theorem V_ok {eps : PyNum} {V : Matrix (TIdx l.shape) (TIdx l.shape) ℂ} (h : l.V eps wl kp = .ok V) :
    wl ≠ 0 ∧ csqrt eps.val ≠ 0 ∧
      V = diagBlocks fun k => vBlock (l.dir kp k).1 (l.dir kp k).2 (l.cosz eps wl kp k) (csqrt eps.val / mu0c) := by
  simp only [TLattice.V, bind_eq_ok, pyCheck_eq_ok, matrixV] at h
  obtain ⟨_, ⟨h1, h2⟩, r, hr, h⟩ := h
  refine ⟨h1, h2, ?_⟩
  cases h
  rw [npSqrt_ok hr]
  rfl

theorem U_ok {U : Matrix (TIdx l.shape) (TIdx l.shape) ℂ} (h : l.U wl kp = .ok U) :
    wl ≠ 0 ∧ csqrt l.epsI.val ≠ 0 ∧ (∀ k, flatT l.shape (l.kz l.epsI wl kp) k ≠ 0) ∧
      U = diagBlocks fun k =>
        let x := (l.dir kp k).1
        let y := (l.dir kp k).2
        let c := l.cosz l.epsI wl kp k
        let d := csqrt l.epsI.val * Real.pi / wl / flatT l.shape (l.kz l.epsI wl kp) k
        let hU : ℂ := mu0c / csqrt l.epsI.val
        !![d * (c * y), -(d * (c * x)), -hU * (d * -x), hU * (d * y);
           d * -x, -(d * y), hU * (d * (c * y)), -hU * (d * (c * x));
           d * (c * y), -(d * (c * x)), hU * (d * -x), -hU * (d * y);
           -(d * -x), d * y, hU * (d * (c * y)), -hU * (d * (c * x))] := by
  simp only [TLattice.U, bind_eq_ok, pyCheck_eq_ok, matrixU] at h
  obtain ⟨_, h1, _, h2, _, h3, h⟩ := h
  refine ⟨h1, h2, h3, ?_⟩
  cases h
  rfl

/-- `U` is the inverse of `Vi`. -/
theorem U_mul_Vi {U V : Matrix (TIdx l.shape) (TIdx l.shape) ℂ} {a b : ℝ} (hU : l.U wl (↑a, ↑b) = .ok U)
    (hV : l.V l.epsI wl (↑a, ↑b) = .ok V) : U * V = 1 := by
  obtain ⟨h1, h2, h3, rfl⟩ := U_ok hU
  obtain ⟨-, -, rfl⟩ := V_ok hV
  rw [diagBlocks_mul, ← diagBlocks_one]
  congr 1
  funext k
  have hwl : (wl : ℂ) ≠ 0 := by exact_mod_cast h1
  have hpi : (Real.pi : ℂ) ≠ 0 := by exact_mod_cast Real.pi_ne_zero
  have hmu : (mu0c : ℂ) ≠ 0 := by exact_mod_cast mu0c_pos.ne'
  refine uv_block ?_ ?_ ?_
  · have := h3 k
    simp only [cosz]
    generalize flatT l.shape (l.kz l.epsI wl (↑a, ↑b)) k = z at *
    generalize csqrt l.epsI.val = r at *
    push_cast
    field_simp
  · generalize csqrt l.epsI.val = r at *
    field_simp
  · refine planarDir_unit (a + flatT l.shape l.gx k) (b + flatT l.shape l.gy k) ?_
    simp

end TLattice

end Khepri
