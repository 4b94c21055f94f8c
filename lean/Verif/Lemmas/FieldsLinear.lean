import Verif.Lemmas.FieldsCore

set_option linter.unusedSectionVars false

/-!
Linearity of `_fourier_fields` in the incident fields.
-/

namespace Khepri

open Matrix

section
variable {U V W : Type} [AddCommGroup U] [Module ℂ U] [AddCommGroup V] [Module ℂ V]

/-- A computation that raises the same exception for every input, or returns a linear function of it. -/
def PyLin (comb : ℂ → W → ℂ → W → W) (F : V → Py W) : Prop :=
  (∃ e, ∀ v, F v = .error e) ∨
    ∃ L : V → W, (∀ v, F v = .ok (L v)) ∧ ∀ a v b w, L (a • v + b • w) = comb a (L v) b (L w)

/-- The linear combinations of a vector space. -/
def vcomb (a : ℂ) (u : U) (b : ℂ) (v : U) : U := a • u + b • v

variable {comb : ℂ → W → ℂ → W → W}

theorem PyLin.const {α : Type} {m : Py α} {k : α → V → Py W} (h : ∀ x, PyLin comb (k x)) :
    PyLin comb (fun v => m >>= fun x => k x v) := by
  cases m with
  | error e => exact .inl ⟨e, fun v => rfl⟩
  | ok x => exact h x

theorem PyLin.comp {F : V → Py U} {G : U → Py W} (hF : PyLin vcomb F) (hG : PyLin comb G) :
    PyLin comb (fun v => F v >>= G) := by
  rcases hF with ⟨e, he⟩ | ⟨L, hL, hl⟩
  · exact .inl ⟨e, fun v => by simp only [he]; rfl⟩
  · rcases hG with ⟨e, he⟩ | ⟨M, hM, hm⟩
    · exact .inl ⟨e, fun v => by simp only [hL]; exact he _⟩
    · refine .inr ⟨fun v => M (L v), fun v => by simp only [hL]; exact hM _, fun a v b w => ?_⟩
      simp only [hl, vcomb, hm]

theorem PyLin.ret {L : V → W} (h : ∀ a v b w, L (a • v + b • w) = comb a (L v) b (L w)) :
    PyLin comb (fun v => (.ok (L v) : Py W)) := .inr ⟨L, fun _ => rfl, h⟩

/-- Precomposition with a linear map. -/
theorem PyLin.pre {G : U → Py W} (hG : PyLin comb G) {L : V → U}
    (h : ∀ (a : ℂ) v (b : ℂ) w, L (a • v + b • w) = a • L v + b • L w) : PyLin comb (fun v => G (L v)) := by
  rcases hG with ⟨e, he⟩ | ⟨M, hM, hm⟩
  · exact .inl ⟨e, fun v => he _⟩
  · exact .inr ⟨fun v => M (L v), fun v => hM _, fun a v b w => by simp only [h, hm]⟩

end

section
variable {n : Type} [Fintype n] [DecidableEq n]

theorem npSolveVec_lin (A : Matrix n n ℂ) : PyLin vcomb (npSolveVec A) := by
  by_cases h : A.det = 0
  · exact .inl ⟨.linAlg, fun v => by simp [npSolveVec, h]⟩
  · exact .inr ⟨fun v => A⁻¹ *ᵥ v, fun v => by simp [npSolveVec, h],
      fun a v b w => by simp [vcomb, mulVec_add, mulVec_smul]⟩

theorem translate_lin (Sl Sr : SMat n) : PyLin vcomb (translateModeAmplitudes Sl Sr) := by
  unfold translateModeAmplitudes
  refine PyLin.comp (F := fun c => npSolveVec (1 - Sl.s22 * Sr.s11) (Sl.s21 *ᵥ c))
    (G := fun x => (.ok (x, Sr.s11 *ᵥ x) : Py _)) ?_ ?_
  · exact (npSolveVec_lin _).pre fun a v b w => by simp [mulVec_add, mulVec_smul]
  · exact .ret fun a v b w => by simp [vcomb, mulVec_add, mulVec_smul]

theorem fromModes_lin (RI : Matrix (n ⊕ n) (n ⊕ n) ℂ) (LI : n → ℂ) (R0 : Matrix (n ⊕ n) (n ⊕ n) ℂ) (zbar : ℝ) :
    PyLin vcomb (fun x : (n → ℂ) × (n → ℂ) => fourierFieldsFromModes RI LI R0 x.1 x.2 zbar) := by
  unfold fourierFieldsFromModes
  refine PyLin.comp (F := fun x : (n → ℂ) × (n → ℂ) => npSolveVec RI (R0 *ᵥ Sum.elim x.1 x.2))
    (G := fun a => (.ok (RI *ᵥ fun i => clampPhasor
    (Sum.elim (fun j => Complex.exp (LI j * zbar)) (fun j => Complex.exp (-(LI j * zbar))) i) * a i) : Py _)) ?_ ?_
  · refine (npSolveVec_lin _).pre fun a v b w => ?_
    rw [← mulVec_smul, ← mulVec_smul, ← mulVec_add]
    congr 1
    funext i
    rcases i with i | i <;> rfl
  · refine .ret fun a v b w => ?_
    rw [vcomb, ← mulVec_smul, ← mulVec_smul, ← mulVec_add]
    congr 1
    funext i
    simp only [Pi.add_apply, Pi.smul_apply, smul_eq_mul]
    ring

end

variable {N : ℕ}

theorem longitudinal_comb {kx ky : Fin N → ℂ} (ic : ICVal N) (a b : ℂ) (x1 x2 x3 x4 y1 y2 y3 y4 : Fin N → ℂ) :
    longitudinalFields (a • x1 + b • y1) (a • x2 + b • y2) (a • x3 + b • y3) (a • x4 + b • y4) kx ky ic =
      (a • (longitudinalFields x1 x2 x3 x4 kx ky ic).1 + b • (longitudinalFields y1 y2 y3 y4 kx ky ic).1,
       a • (longitudinalFields x1 x2 x3 x4 kx ky ic).2 + b • (longitudinalFields y1 y2 y3 y4 kx ky ic).2) := by
  unfold longitudinalFields
  refine Prod.ext ?_ ?_
  · cases ic with
    | num x =>
      funext i
      simp only [Pi.add_apply, Pi.smul_apply, smul_eq_mul]
      ring
    | mat A =>
      funext i
      simp only [Pi.add_apply, Pi.smul_apply, smul_eq_mul, mulVec, dotProduct, Finset.mul_sum]
      rw [← Finset.sum_add_distrib]
      refine Finset.sum_congr rfl fun j _ => ?_
      ring
  · funext i
    simp only [Pi.add_apply, Pi.smul_apply, smul_eq_mul]
    ring

/-- `_fourier_fields` is linear in the incident fields. -/
theorem fourierFields_lin (c : Crystal N) (z : ℝ) :
    PyLin Fields6.comb (fun v : Vec2 N × Vec2 N => c.fourierFields z v.1 v.2) := by
  unfold Crystal.fourierFields
  refine PyLin.const fun ⟨l, idx, zr⟩ => ?_
  refine PyLin.const fun _ => PyLin.const fun LI => PyLin.const fun WI => PyLin.const fun VI => ?_
  refine PyLin.const fun src => PyLin.const fun ⟨kx, ky, _⟩ => PyLin.const fun ⟨W0, V0⟩ => ?_
  refine PyLin.const fun ref => PyLin.const fun Wref => PyLin.const fun Vref => ?_
  dsimp only
  refine PyLin.comp (F := fun v : Vec2 N × Vec2 N => npSolveVec (layerEigenbasis Wref Vref) (Sum.elim v.1 v.2)) ?_ ?_
  · refine (npSolveVec_lin _).pre fun a v b w => ?_
    funext i
    rcases i with i | i <;> rfl
  refine PyLin.const fun st => PyLin.const fun Sl => PyLin.const fun Sr => PyLin.const fun Sl' => PyLin.const fun Sr' => ?_
  refine PyLin.comp (F := fun s : (Fin N ⊕ Fin N) ⊕ (Fin N ⊕ Fin N) → ℂ =>
    translateModeAmplitudes Sl' Sr' fun i => s (.inl i)) ?_ ?_
  · exact (translate_lin _ _).pre fun a v b w => rfl
  refine PyLin.const (V := Vec2 N × Vec2 N) (k := fun zr x => _) fun zr => ?_
  refine PyLin.comp (F := fun x : Vec2 N × Vec2 N => fourierFieldsFromModes (layerEigenbasis WI VI) LI
    (layerEigenbasis W0 V0) x.1 x.2 (2 * Real.pi / src.wavelength * (l.depth - zr))) (fromModes_lin _ _ _ _) ?_
  refine PyLin.const fun ic => ?_
  refine .ret fun a v b w => ?_
  have := longitudinal_comb (kx := kx) (ky := ky) ic a b (fun i => v (.inl (.inl i))) (fun i => v (.inl (.inr i)))
    (fun i => v (.inr (.inl i))) (fun i => v (.inr (.inr i))) (fun i => w (.inl (.inl i))) (fun i => w (.inl (.inr i)))
    (fun i => w (.inr (.inl i))) (fun i => w (.inr (.inr i)))
  unfold Fields6.comb
  congr 1
  · exact congrArg Prod.fst this
  · exact congrArg Prod.snd this

end Khepri
