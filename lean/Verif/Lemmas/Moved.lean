import Verif.Lemmas.EmbedDevice
import Verif.Lemmas.Islands
import Verif.Lemmas.SymmetryForms
import Verif.Spec.TwistedSymmetry

set_option linter.unusedSectionVars false

/-!
Analytical layers whose islands are moved.
-/

namespace Khepri

open Matrix Complex

variable {N : ℕ}

theorem transformRectangle_move (v : R2) (a b c d : ℝ) (g : R2) (sigma : ℝ) :
    transformRectangle (a + v.1) (b + v.2) (c + v.1) (d + v.2) g sigma =
      exp (-(I * (g.1 * v.1 + g.2 * v.2))) * transformRectangle a b c d g sigma := by
  simp only [transformRectangle]
  push_cast
  rw [show ((c : ℂ) + v.1 - (a + v.1)) = c - a by ring, show ((d : ℂ) + v.2 - (b + v.2)) = d - b by ring,
    show -I * (((a : ℂ) + v.1) * g.1 + (b + v.2) * g.2) = -(I * (g.1 * v.1 + g.2 * v.2)) + -I * (a * g.1 + b * g.2) by ring,
    exp_add]
  ring

theorem shapeValue_move {jv1 : ℝ → ℝ} (v : R2) (sh : Shape) {g : R2} (hg : ClearOf g) (sigma : ℝ) :
    shapeValue jv1 (sh.move v) g sigma = exp (-(I * (g.1 * v.1 + g.2 * v.2))) * shapeValue jv1 sh g sigma := by
  cases sh with
  | rectangle a b c d => simp only [Shape.move, shapeValue, transformShape, transformRectangle_move]
  | disc a b r =>
    simp only [Shape.move, shapeValue, transformShape, transformDisc]
    by_cases h : |g.1| ≤ 1 / 10 ^ 8 ∧ |g.2| ≤ 1 / 10 ^ 8
    · have h0 : g = 0 := by
        rcases hg with h0 | h0 | h0
        · exact h0
        · exact absurd h.1 (not_le.2 h0)
        · exact absurd h.2 (not_le.2 h0)
      subst h0
      simp [pure, Except.pure]
    · rw [if_neg h, if_neg h]
      by_cases hn : Real.sqrt (g.1 * g.1 + g.2 * g.2) * r = 0
      · simp [hn, throw, throwThe, MonadExceptOf.throw, bind, Except.bind]
      · simp only [if_neg hn, pure, Except.pure, bind, Except.bind]
        push_cast
        rw [show -I * (((a : ℂ) + v.1) * g.1 + (b + v.2) * g.2) =
          -(I * (g.1 * v.1 + g.2 * v.2)) + -I * (a * g.1 + b * g.2) by ring, exp_add]
        ring
  | ellipse x y a b rot => simp [Shape.move, shapeValue, transformShape]

theorem islandCoef_move {jv1 : ℝ → ℝ} (v : R2) {b : R2 × R2} {mn : ℤ × ℤ} (hg : ClearOf (latticeVec b mn)) (sigma : ℝ)
    (islands : List Island) (host : ℂ) :
    islandCoef jv1 b sigma (islands.map fun i => ⟨i.shape.move v, i.eps⟩) host mn =
      exp (-(I * ((latticeVec b mn).1 * v.1 + (latticeVec b mn).2 * v.2))) * islandCoef jv1 b sigma islands host mn := by
  simp only [islandCoef, List.map_map, mul_add]
  congr 1
  · by_cases h : mn = (0, 0)
    · subst h
      simp [latticeVec]
    · simp [h]
  · rw [← List.sum_map_mul_left]
    congr 1
    refine List.map_congr_left fun i _ => ?_
    simp only [Function.comp, shapeValue_move v _ hg]
    ring_nf

/-- The phase of the orders for a pattern moved by `v`, order number `r` being read as `τ r`. -/
noncomputable def movePhase (b : R2 × R2) (τ : ℕ → ℤ × ℤ) (v : R2) (r : ℕ) : ℂ :=
  exp (-(I * ((latticeVec b (τ r)).1 * v.1 + (latticeVec b (τ r)).2 * v.2)))

theorem movePhase_norm (b : R2 × R2) (τ : ℕ → ℤ × ℤ) (v : R2) (r : ℕ) : ‖movePhase b τ v r‖ = 1 := by
  rw [movePhase, show -(I * (((latticeVec b (τ r)).1 : ℂ) * v.1 + (latticeVec b (τ r)).2 * v.2)) =
    ((-((latticeVec b (τ r)).1 * v.1 + (latticeVec b (τ r)).2 * v.2) : ℝ) : ℂ) * I by push_cast; ring,
    norm_exp_ofReal_mul_I]

/-- How the tables of analytical layers are read: a difference of labels of the orders. -/
def ReadsDifferences (e : Expansion N) (τ : ℕ → ℤ × ℤ) : Prop :=
  ∀ r c : Fin N, orderAt (triple e.pw.1, triple e.pw.2) (tablePos e.pw r c) = ((τ r).1 - (τ c).1, (τ r).2 - (τ c).2)

theorem reads_differences {e : Expansion N} (h1 : e.pw.1 % 2 = 1) (h2 : e.pw.2 % 2 = 1)
    (hw : e.pw.1 = e.pw.2 ∨ e.pw.1 = 1 ∨ e.pw.2 = 1) : ∃ τ, ReadsDifferences e τ := by
  obtain ⟨P, hP⟩ : ∃ P, e.pw.1 = P := ⟨_, rfl⟩
  obtain ⟨Q, hQ⟩ : ∃ Q, e.pw.2 = Q := ⟨_, rfl⟩
  have hN := e.hpw
  have hpw : e.pw = (P, Q) := Prod.ext hP hQ
  rw [hP] at h1 hN hw
  rw [hQ] at h2 hN hw
  unfold ReadsDifferences
  rw [hpw]
  rcases hw with rfl | rfl | rfl
  · exact ⟨fun r => (((r / P : ℕ) : ℤ), ((r % P : ℕ) : ℤ)), fun r c => by
      rw [table_square h1 (by rw [hN]; exact r.2) (by rw [hN]; exact c.2)]; rfl⟩
  · exact ⟨fun r => (((r % 1 : ℕ) : ℤ), ((r / 1 : ℕ) : ℤ)), fun r c => by
      rw [table_second h2 (by rw [hN]; exact r.2) (by rw [hN]; exact c.2)]; rfl⟩
  · exact ⟨fun r => (((r % P : ℕ) : ℤ), ((r / P : ℕ) : ℤ)), fun r c => by
      rw [table_first h1 (by rw [hN]; exact r.2) (by rw [hN]; exact c.2)]; rfl⟩

theorem permittivity_move {jv1 : ℝ → ℝ} {e : Expansion N} {τ : ℕ → ℤ × ℤ} (hτ : ReadsDifferences e τ)
    (hp : Periods e.reciprocal) (h0 : e.pw.1 ≠ 0 ∧ e.pw.2 ≠ 0) {v : R2} {f f' : Form} (hf : f.Moved v f')
    {C C' : Matrix (Fin N) (Fin N) ℂ} (h : Permittivity jv1 e f C) (h' : Permittivity jv1 e f' C') (i j : Fin N) :
    C' i j * movePhase e.reciprocal τ v j = movePhase e.reciprocal τ v i * C i j := by
  cases f with
  | uniform eps =>
    simp only [Form.Moved] at hf
    subst hf
    simp only [Permittivity] at h h'
    rw [h, h']
    by_cases hij : i = j
    · subst hij; rw [mul_comm]
    · simp [Matrix.one_apply_ne hij]
  | analytical islands host =>
    simp only [Form.Moved] at hf
    subst hf
    simp only [Permittivity] at h h'
    obtain ⟨-, -, -, rfl⟩ := analyticalC_eq_ok h h0
    obtain ⟨-, -, -, rfl⟩ := analyticalC_eq_ok h' h0
    simp only [Matrix.of_apply, hτ i j]
    have hg := hp ((τ i).1 - (τ j).1, (τ i).2 - (τ j).2)
    rw [← latticeVec_eq] at hg
    rw [islandCoef_move v hg, mul_right_comm, movePhase, movePhase, ← exp_add]
    congr 2
    simp only [latticeVec]
    push_cast
    ring
  | fft a => exact absurd hf (by simp [Form.Moved])
  | halfInc => exact absurd hf (by simp [Form.Moved])
  | halfTrn => exact absurd hf (by simp [Form.Moved])

theorem embed_id_fit {d : Fin N → ℂ} {C C' : Matrix (Fin N) (Fin N) ℂ} (h : ∀ i j, C' i j * d j = d i * C i j) :
    C' * embedMat id d = embedMat id d * C :=
  embed_fit Function.injective_id h fun x hx => absurd rfl (hx x)

/-- The incident amplitudes, the middle order being kept. -/
theorem incident_phase {n : ℕ} {inc : Vec2 n} {te tm : ℂ} {k : C3} (hi : incident n te tm k = .ok inc)
    {f : Fin n → Fin n} (hf : Function.Injective f) {d : Fin n → ℂ} (hd : ∀ b, ‖d b‖ = 1) (b0 : Fin n)
    (hb0 : (b0 : ℕ) = (n - 1) / 2) (hmid : f b0 = b0) :
    ∃ w : ℂ, ‖w‖ = 1 ∧ inc = w • (carryMat f d Turn.id *ᵥ inc) := by
  obtain ⟨-, -, aTE, aTM, -, rfl⟩ := incident_eq_ok.1 hi
  have hd0 : d b0 ≠ 0 := norm_ne_zero_iff.1 (by rw [hd]; norm_num)
  have hb : ∀ b : Fin n, (b : ℕ) = (n - 1) / 2 ↔ b = b0 := fun b => by rw [← hb0]; exact Fin.ext_iff.symm
  have hs := Finite.surjective_of_injective hf
  refine ⟨(d b0)⁻¹, by rw [norm_inv, hd, inv_one], ?_⟩
  funext x
  rcases x with x | x <;>
  · obtain ⟨b, rfl⟩ := hs x
    have hfb : f b = b0 ↔ b = b0 := by
      constructor
      · intro h; exact hf (h.trans hmid.symm)
      · rintro rfl; exact hmid
    first
    | rw [Pi.smul_apply, (carryMat_on hf _ b).1]
    | rw [Pi.smul_apply, (carryMat_on hf _ b).2]
    simp only [Sum.elim_inl, Sum.elim_inr, hb, hfb, Turn.id, smul_eq_mul]
    by_cases h : b = b0
    · subst h
      simp [hd0]
    · simp [h]

end Khepri
