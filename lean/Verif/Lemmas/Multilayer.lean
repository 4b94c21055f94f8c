import Verif.Spec.Multilayer
import Verif.Lemmas.TmatLayer
import Verif.Lemmas.Poynting
import Mathlib.Analysis.SpecialFunctions.Trigonometric.Deriv

/-!
Plane waves in stacks of uniform layers.
-/

set_option linter.unusedSectionVars false

namespace Khepri

open Matrix

section
variable {ι : Type} [Fintype ι] [DecidableEq ι]

/-- Tangential fields of order `i`: electric `A u`, magnetic `i h (u_y, -u_x)`. -/
noncomputable def polTang (i : ι) (u : ℂ × ℂ) (A h : ℂ) : Tang (ι ⊕ ι) :=
  ⟨orderWave i (A * u.1, A * u.2), orderWave i (Complex.I * h * u.2, -(Complex.I * h * u.1))⟩

theorem smul_one_mulVec (eps : ℂ) (v : ι → ℂ) : (eps • (1 : Matrix ι ι ℂ)) *ᵥ v = fun i => eps * v i := by
  rw [smul_mulVec, one_mulVec]; rfl

theorem pol_Q {kx ky : ι → ℝ} {i : ι} {u : ℂ × ℂ} {pol : Polarisation} (hp : pol.Holds (kx i) (ky i) u)
    {eps kz : ℂ} (hk : kz ^ 2 = eps - kx i ^ 2 - ky i ^ 2) (h0 : kz ≠ 0) (A : ℂ) :
    maxwellQ (fun i => (kx i : ℂ)) (fun i => (ky i : ℂ)) (eps • 1) *ᵥ orderWave i (A * u.1, A * u.2) =
      orderWave i (kz * pol.admittance eps kz * A * u.2, -(kz * pol.admittance eps kz * A * u.1)) := by
  rw [maxwellQ_mulVec]
  simp only [smul_one_mulVec, orderWave, Sum.elim_inl, Sum.elim_inr]
  congr 1 <;> funext j <;> by_cases hj : j = i
  · subst hj
    simp only [Pi.single_eq_same]
    cases pol with
    | te =>
      simp only [Polarisation.Holds, Polarisation.admittance] at *
      linear_combination (A * ky j : ℂ) * hp - (A * u.2) * hk
    | tm =>
      simp only [Polarisation.Holds, Polarisation.admittance] at *
      field_simp
      linear_combination (-A * kx j : ℂ) * hp
  · simp [Pi.single_eq_of_ne hj]
  · subst hj
    simp only [Pi.single_eq_same]
    cases pol with
    | te =>
      simp only [Polarisation.Holds, Polarisation.admittance] at *
      linear_combination (-A * kx j : ℂ) * hp + (A * u.1) * hk
    | tm =>
      simp only [Polarisation.Holds, Polarisation.admittance] at *
      field_simp
      linear_combination (-A * ky j : ℂ) * hp
  · simp [Pi.single_eq_of_ne hj]

theorem pol_P {kx ky : ι → ℝ} {i : ι} {u : ℂ × ℂ} {pol : Polarisation} (hp : pol.Holds (kx i) (ky i) u)
    {eps kz : ℂ} (he : eps ≠ 0) (hk : kz ^ 2 = eps - kx i ^ 2 - ky i ^ 2) (h0 : kz ≠ 0) (B : ℂ) :
    maxwellP (fun i => (kx i : ℂ)) (fun i => (ky i : ℂ)) (eps • 1) *ᵥ orderWave i (B * u.2, -(B * u.1)) =
      orderWave i (-(kz / pol.admittance eps kz) * B * u.1, -(kz / pol.admittance eps kz) * B * u.2) := by
  rw [maxwellP_mulVec, smul_one_inv he]
  simp only [smul_one_mulVec, orderWave, Sum.elim_inl, Sum.elim_inr]
  congr 1 <;> funext j <;> by_cases hj : j = i
  · subst hj
    simp only [Pi.single_eq_same]
    cases pol with
    | te =>
      simp only [Polarisation.Holds, Polarisation.admittance] at *
      field_simp
      linear_combination (B * kx j : ℂ) * hp
    | tm =>
      simp only [Polarisation.Holds, Polarisation.admittance] at *
      field_simp
      linear_combination (B * ky j : ℂ) * hp + (B * u.1) * hk
  · simp [Pi.single_eq_of_ne hj]
  · subst hj
    simp only [Pi.single_eq_same]
    cases pol with
    | te =>
      simp only [Polarisation.Holds, Polarisation.admittance] at *
      field_simp
      linear_combination (B * ky j : ℂ) * hp
    | tm =>
      simp only [Polarisation.Holds, Polarisation.admittance] at *
      field_simp
      linear_combination (-B * kx j : ℂ) * hp + (B * u.2) * hk
  · simp [Pi.single_eq_of_ne hj]

theorem admittance_ne_zero {pol : Polarisation} {eps kz : ℂ} (he : eps ≠ 0) (h0 : kz ≠ 0) : pol.admittance eps kz ≠ 0 := by
  cases pol with
  | te => exact h0
  | tm => exact div_ne_zero he h0

theorem hasDerivAt_orderWave {f g : ℝ → ℂ} {f' g' : ℂ} {z : ℝ} (hf : HasDerivAt f f' z) (hg : HasDerivAt g g' z) (i : ι)
    (j : ι ⊕ ι) : HasDerivAt (fun t => orderWave i (f t, g t) j) (orderWave i (f', g') j) z := by
  rcases j with j | j <;> by_cases hj : j = i
  · subst hj; simpa [orderWave] using hf
  · simpa [orderWave, Pi.single_eq_of_ne hj] using hasDerivAt_const z (0 : ℂ)
  · subst hj; simpa [orderWave] using hg
  · simpa [orderWave, Pi.single_eq_of_ne hj] using hasDerivAt_const z (0 : ℂ)

/-- One uniform layer acts on a polarised order by its characteristic matrix. -/
theorem pol_transfer {kx ky : ι → ℝ} {i : ι} {u : ℂ × ℂ} {pol : Polarisation} (hp : pol.Holds (kx i) (ky i) u)
    {eps kz : ℂ} (he : eps ≠ 0) (hk : kz ^ 2 = eps - kx i ^ 2 - ky i ^ 2) (h0 : kz ≠ 0) (t : ℝ) (x : Fin 2 → ℂ) :
    MaxwellTransfer (maxwellP (fun i => (kx i : ℂ)) (fun i => (ky i : ℂ)) (eps • 1))
      (maxwellQ (fun i => (kx i : ℂ)) (fun i => (ky i : ℂ)) (eps • 1)) t
      (polTang i u ((charMatrix (pol.admittance eps kz) (kz * t) *ᵥ x) 0)
        ((charMatrix (pol.admittance eps kz) (kz * t) *ᵥ x) 1)) (polTang i u (x 0) (x 1)) := by
  obtain ⟨η, hη⟩ : ∃ η, η = pol.admittance eps kz := ⟨_, rfl⟩
  have hη0 : η ≠ 0 := hη ▸ admittance_ne_zero he h0
  rw [← hη]
  obtain ⟨A, hA⟩ : ∃ A, A = (charMatrix η (kz * t) *ᵥ x) 0 := ⟨_, rfl⟩
  obtain ⟨h, hh⟩ : ∃ h, h = (charMatrix η (kz * t) *ᵥ x) 1 := ⟨_, rfl⟩
  rw [← hA, ← hh]
  simp only [charMatrix, mulVec, dotProduct, Fin.sum_univ_two, of_apply, cons_val_zero, cons_val_one] at hA hh
  set a : ℝ → ℂ := fun z => Complex.cos (kz * z) * A - Complex.I * Complex.sin (kz * z) / η * h with ha
  set b : ℝ → ℂ := fun z => -(Complex.I * η * Complex.sin (kz * z)) * A + Complex.cos (kz * z) * h with hb
  have hlin : ∀ z : ℝ, HasDerivAt (fun z : ℝ => kz * (z : ℂ)) kz z := fun z => by
    simpa using (Complex.ofRealCLM.hasDerivAt (x := z)).const_mul kz
  have hcos : ∀ z : ℝ, HasDerivAt (fun z : ℝ => Complex.cos (kz * z)) (-Complex.sin (kz * z) * kz) z := fun z =>
    (Complex.hasDerivAt_cos _).comp z (hlin z)
  have hsin : ∀ z : ℝ, HasDerivAt (fun z : ℝ => Complex.sin (kz * z)) (Complex.cos (kz * z) * kz) z := fun z =>
    (Complex.hasDerivAt_sin _).comp z (hlin z)
  have hda : ∀ z : ℝ, HasDerivAt a (-(kz / η) * (Complex.I * b z)) z := by
    intro z
    refine (((hcos z).mul_const A).sub ((((hsin z).const_mul Complex.I).div_const η).mul_const h)).congr_deriv ?_
    simp only [hb]
    field_simp
    linear_combination (-(Complex.sin (kz * z)) * A * η) * Complex.I_sq
  have hdb : ∀ z : ℝ, HasDerivAt (fun z => Complex.I * b z) (kz * η * a z) z := by
    intro z
    refine (((((hsin z).const_mul (Complex.I * η)).neg.mul_const A).add ((hcos z).mul_const h)).const_mul Complex.I).congr_deriv ?_
    simp only [ha]
    field_simp
    linear_combination (-(Complex.cos (kz * z)) * A * η) * Complex.I_sq
  have hpt : ((t : ℂ) = t) := rfl
  have key := flow_unique (A := fromBlocks 0 (maxwellP (fun i => (kx i : ℂ)) (fun i => (ky i : ℂ)) (eps • 1))
      (maxwellQ (fun i => (kx i : ℂ)) (fun i => (ky i : ℂ)) (eps • 1)) 0)
    (f := fun z => Sum.elim (polTang i u (a z) (b z)).E (polTang i u (a z) (b z)).H) (fun z j => by
      simp only [polTang]
      have e1 := pol_P hp he hk h0 (Complex.I * b z)
      have e2 := pol_Q hp hk h0 (a z)
      rw [fromBlocks_mulVec]
      simp only [Sum.elim_comp_inl, Sum.elim_comp_inr, zero_mulVec, zero_add, add_zero]
      rw [e1, e2, ← hη]
      rcases j with j | j
      · simp only [Sum.elim_inl]
        exact hasDerivAt_orderWave ((hda z).mul_const _) ((hda z).mul_const _) i j
      · simp only [Sum.elim_inr]
        exact hasDerivAt_orderWave ((hdb z).mul_const _) (((hdb z).mul_const _).neg) i j) t
  have ea : a t = x 0 := by
    simp only [ha, hA, hh]
    field_simp
    linear_combination (x 0 * η) * Complex.sin_sq_add_cos_sq (kz * t) - (x 0 * η) * (Complex.sin (kz * t)) ^ 2 * Complex.I_sq
  have eb : b t = x 1 := by
    simp only [hb, hA, hh]
    field_simp
    linear_combination (x 1) * Complex.sin_sq_add_cos_sq (kz * t) - (x 1) * (Complex.sin (kz * t)) ^ 2 * Complex.I_sq
  have ea0 : a 0 = A := by simp [ha]
  have eb0 : b 0 = h := by simp [hb]
  simp only [ea, eb, ea0, eb0] at key
  exact key

/-- Polarised waves in an outer medium. -/
theorem pol_outer {kx ky : ι → ℝ} {i : ι} {u : ℂ × ℂ} {pol : Polarisation} (hp : pol.Holds (kx i) (ky i) u)
    {er : ℝ} (hr : er - kx i ^ 2 - ky i ^ 2 ≠ 0) (a b : ℂ) :
    outerField kx ky er ⟨orderWave i (a * u.1, a * u.2), orderWave i (b * u.1, b * u.2)⟩ =
      polTang i u (a + b) (outerAdmittance pol (kx i ^ 2 + ky i ^ 2) er * (a - b)) := by
  have hk : outerKz (er - kx i ^ 2 - ky i ^ 2) ^ 2 = (er : ℂ) - kx i ^ 2 - ky i ^ 2 := by
    rw [outerKz_sq]; push_cast; rfl
  have h0 : outerKz (er - kx i ^ 2 - ky i ^ 2) ≠ 0 := by
    rw [Ne, outerKz_eq_zero]; exact hr
  have e : (fun j => (orderWave i (b * u.1, b * u.2) j - orderWave i (a * u.1, a * u.2) j) /
      (Complex.I * outerKz (er - kx (j.elim id id) ^ 2 - ky (j.elim id id) ^ 2))) =
      orderWave i ((b - a) / (Complex.I * outerKz (er - kx i ^ 2 - ky i ^ 2)) * u.1,
        (b - a) / (Complex.I * outerKz (er - kx i ^ 2 - ky i ^ 2)) * u.2) := by
    funext j
    rcases j with j | j <;> by_cases hj : j = i
    · subst hj; simp [orderWave]; ring
    · simp [orderWave, Pi.single_eq_of_ne hj]
    · subst hj; simp [orderWave]; ring
    · simp [orderWave, Pi.single_eq_of_ne hj]
  unfold outerField polTang
  simp only [e]
  rw [pol_Q hp hk h0]
  congr 1
  · funext j
    rcases j with j | j <;> by_cases hj : j = i
    · subst hj; simp [orderWave]; ring
    · simp [orderWave, Pi.single_eq_of_ne hj]
    · subst hj; simp [orderWave]; ring
    · simp [orderWave, Pi.single_eq_of_ne hj]
  · rw [outerAdmittance, ← sub_sub]
    congr 2
    · field_simp
      linear_combination (-(a - b) * u.2 * pol.admittance er (outerKz (er - kx i ^ 2 - ky i ^ 2))) * Complex.I_sq
    · field_simp
      linear_combination ((a - b) * u.1 * pol.admittance er (outerKz (er - kx i ^ 2 - ky i ^ 2))) * Complex.I_sq

theorem pol_chain {N : ℕ} {jv1 : ℝ → ℝ} {e : Expansion N} {kx ky : Fin N → ℝ} {k0 : ℝ} {Ls : List (Layer N)}
    {Ms : List (Mat2 N × Mat2 N × ℝ)} {data : List (ℂ × ℝ)} (hM : LayerEquations jv1 e kx ky k0 Ls Ms)
    (hd : List.Forall₂ (fun l x => l.form = .uniform x.1 ∧ l.depth = x.2) Ls data) {i : Fin N} {u : ℂ × ℂ}
    {pol : Polarisation} (hp : pol.Holds (kx i) (ky i) u) (hg : ∀ x ∈ data, x.1 ≠ ((kx i ^ 2 + ky i ^ 2 : ℝ) : ℂ))
    (x : Fin 2 → ℂ) :
    MaxwellChain Ms (polTang i u ((abeles pol (kx i ^ 2 + ky i ^ 2) k0 data *ᵥ x) 0)
      ((abeles pol (kx i ^ 2 + ky i ^ 2) k0 data *ᵥ x) 1)) (polTang i u (x 0) (x 1)) := by
  unfold LayerEquations at hM
  induction hM generalizing data with
  | nil =>
    cases hd
    simp only [abeles, List.map_nil, List.prod_nil, one_mulVec]
    rfl
  | @cons l M Ls Ms h1 _ ih =>
    cases hd with
    | @cons _ y _ data hy hd =>
      obtain ⟨C, hC, hdet, rfl⟩ := h1
      rw [hy.1] at hC
      have hC : C = y.1 • 1 := hC
      subst hC
      have hy0 : y.1 ≠ 0 := by
        intro h0
        have : Nonempty (Fin N) := ⟨i⟩
        simp [h0] at hdet
      have hne : y.1 - ((kx i ^ 2 + ky i ^ 2 : ℝ) : ℂ) ≠ 0 := sub_ne_zero.2 (hg y List.mem_cons_self)
      have hk : layerKz (kx i ^ 2 + ky i ^ 2) y.1 ^ 2 = y.1 - kx i ^ 2 - ky i ^ 2 := by
        rw [layerKz]
        have := csqrt_sq (y.1 - ((kx i ^ 2 + ky i ^ 2 : ℝ) : ℂ))
        unfold csqrt at this
        rw [this]; push_cast; ring
      have h0 : layerKz (kx i ^ 2 + ky i ^ 2) y.1 ≠ 0 := by
        intro h0
        rw [h0] at hk
        refine hne ?_
        push_cast
        linear_combination -hk
      have e : abeles pol (kx i ^ 2 + ky i ^ 2) k0 (y :: data) *ᵥ x =
          charMatrix (pol.admittance y.1 (layerKz (kx i ^ 2 + ky i ^ 2) y.1))
            (layerKz (kx i ^ 2 + ky i ^ 2) y.1 * ((l.depth * k0 : ℝ) : ℂ)) *ᵥ
            (abeles pol (kx i ^ 2 + ky i ^ 2) k0 data *ᵥ x) := by
        rw [mulVec_mulVec, hy.2]
        simp only [abeles, List.map_cons, List.prod_cons]
        push_cast
        rfl
      rw [e]
      exact ⟨_, pol_transfer hp hy0 hk h0 _ _, ih hd fun z hz => hg z (List.mem_cons_of_mem _ hz)⟩

theorem orderWave_smul (i : ι) (a : ℂ) (u : ℂ × ℂ) : orderWave i (a * u.1, a * u.2) = a • orderWave i u := by
  funext j
  rcases j with j | j <;> by_cases hj : j = i
  · subst hj; simp [orderWave]
  · simp [orderWave, Pi.single_eq_of_ne hj]
  · subst hj; simp [orderWave]
  · simp [orderWave, Pi.single_eq_of_ne hj]

theorem orderWave_ne_zero {i : ι} {u : ℂ × ℂ} (h : u ≠ 0) : orderWave i u ≠ 0 := by
  intro h0
  refine h (Prod.ext ?_ ?_)
  · simpa [orderWave] using congrFun h0 (.inl i)
  · simpa [orderWave] using congrFun h0 (.inr i)

theorem pol_scatters {kx ky : ι → ℝ} {i : ι} {u : ℂ × ℂ} {pol : Polarisation} (hp : pol.Holds (kx i) (ky i) u)
    {er et k0 : ℝ} (hr : er - kx i ^ 2 - ky i ^ 2 ≠ 0) (ht : et - kx i ^ 2 - ky i ^ 2 ≠ 0) (hr0 : er ≠ 0)
    {S : SMat (ι ⊕ ι)} {Ms : List (Matrix (ι ⊕ ι) (ι ⊕ ι) ℂ × Matrix (ι ⊕ ι) (ι ⊕ ι) ℂ × ℝ)}
    (hS : ∀ p q, Scatters S p q ↔ MaxwellChain Ms (outerField kx ky er p) (outerField kx ky et q))
    {data : List (ℂ × ℝ)}
    (hch : MaxwellChain Ms
      (polTang i u ((abeles pol (kx i ^ 2 + ky i ^ 2) k0 data *ᵥ ![1, outerAdmittance pol (kx i ^ 2 + ky i ^ 2) et]) 0)
        ((abeles pol (kx i ^ 2 + ky i ^ 2) k0 data *ᵥ ![1, outerAdmittance pol (kx i ^ 2 + ky i ^ 2) et]) 1))
      (polTang i u ((![1, outerAdmittance pol (kx i ^ 2 + ky i ^ 2) et] : Fin 2 → ℂ) 0)
        ((![1, outerAdmittance pol (kx i ^ 2 + ky i ^ 2) et] : Fin 2 → ℂ) 1))) :
    (u ≠ 0 → stackDenominator pol (kx i ^ 2 + ky i ^ 2) k0 data er et ≠ 0) ∧
      S.s11 *ᵥ orderWave i u = reflection pol (kx i ^ 2 + ky i ^ 2) k0 data er et • orderWave i u ∧
      S.s21 *ᵥ orderWave i u = transmission pol (kx i ^ 2 + ky i ^ 2) k0 data er et • orderWave i u := by
  set κ2 := kx i ^ 2 + ky i ^ 2 with hκ
  have hη0 : outerAdmittance pol κ2 er ≠ 0 := by
    refine admittance_ne_zero (by exact_mod_cast hr0) ?_
    rw [Ne, outerKz_eq_zero, hκ, ← sub_sub]; exact hr
  set x := stackFields pol κ2 k0 data et with hx
  set η := outerAdmittance pol κ2 er with hη
  have hD : stackDenominator pol κ2 k0 data er et = η * x 0 + x 1 := rfl
  have hR : reflection pol κ2 k0 data er et = (η * x 0 - x 1) / (η * x 0 + x 1) := rfl
  have hT : transmission pol κ2 k0 data er et = 2 * η / (η * x 0 + x 1) := rfl
  have e1 : outerField kx ky er ⟨orderWave i ((η * x 0 + x 1) / (2 * η) * u.1, (η * x 0 + x 1) / (2 * η) * u.2),
      orderWave i ((η * x 0 - x 1) / (2 * η) * u.1, (η * x 0 - x 1) / (2 * η) * u.2)⟩ = polTang i u (x 0) (x 1) := by
    rw [pol_outer hp hr, ← hκ, ← hη]
    congr 1 <;> field_simp <;> ring
  have e2 : outerField kx ky et ⟨orderWave i (1 * u.1, 1 * u.2), orderWave i (0 * u.1, 0 * u.2)⟩ =
      polTang i u 1 (outerAdmittance pol κ2 et) := by
    rw [pol_outer hp ht, ← hκ]
    congr 1 <;> ring
  have hsc := (hS ⟨orderWave i ((η * x 0 + x 1) / (2 * η) * u.1, (η * x 0 + x 1) / (2 * η) * u.2),
      orderWave i ((η * x 0 - x 1) / (2 * η) * u.1, (η * x 0 - x 1) / (2 * η) * u.2)⟩
      ⟨orderWave i (1 * u.1, 1 * u.2), orderWave i (0 * u.1, 0 * u.2)⟩).2 (by rw [e1, e2]; exact hch)
  obtain ⟨k1, k2⟩ := hsc
  simp only [orderWave_smul, zero_smul, mulVec_zero, add_zero, one_smul, mulVec_smul] at k1 k2
  rw [hD, hR, hT]
  by_cases hu : u = 0
  · have hz : orderWave i u = 0 := by
      subst hu
      funext j
      rcases j with j | j <;> simp [orderWave]
    simp only [hz, mulVec_zero, smul_zero, and_self, and_true]
    exact fun h => absurd hu h
  · have hne : η * x 0 + x 1 ≠ 0 := by
      intro h0
      rw [h0, zero_div, zero_smul] at k2
      exact orderWave_ne_zero hu k2
    refine ⟨fun _ => hne, ?_, ?_⟩
    · have : (2 * η / (η * x 0 + x 1)) • ((η * x 0 - x 1) / (2 * η)) • orderWave i u =
          (2 * η / (η * x 0 + x 1)) • ((η * x 0 + x 1) / (2 * η)) • S.s11 *ᵥ orderWave i u := by rw [k1]
      rw [smul_smul, smul_smul] at this
      have a1 : 2 * η / (η * x 0 + x 1) * ((η * x 0 + x 1) / (2 * η)) = 1 := by field_simp
      have a2 : 2 * η / (η * x 0 + x 1) * ((η * x 0 - x 1) / (2 * η)) = (η * x 0 - x 1) / (η * x 0 + x 1) := by field_simp
      rw [a1, a2, one_smul] at this
      exact this.symm
    · have : (2 * η / (η * x 0 + x 1)) • orderWave i u =
          (2 * η / (η * x 0 + x 1)) • ((η * x 0 + x 1) / (2 * η)) • S.s21 *ᵥ orderWave i u := by rw [← k2]
      rw [smul_smul] at this
      have a1 : 2 * η / (η * x 0 + x 1) * ((η * x 0 + x 1) / (2 * η)) = 1 := by field_simp
      rw [a1, one_smul] at this
      exact this.symm

end

theorem outer_not_grazing {N : ℕ} {lib : NumLib} {order : List String} {c c1 c2 c3 : Crystal N} {stack : List String}
    {m : Bool ⊕ List Bool} {Ls : List (Layer N)} {er et : ℝ} {wl : ℝ} {te tm : ℂ} {theta phi : ℝ}
    {kpo : Option (ℂ × ℂ)} (hc : FreshDevice c stack m Ls er et)
    (h1 : c.setDevice stack m = .ok c1) (h2 : c1.setSource wl te tm theta phi kpo = .ok c2)
    (ho : SetOrder ("Sref" :: (stack ++ ["Strans"])) order) (h3 : c2.solve lib order = .ok c3)
    {src : Source} (hs : c2.source = some src) {kp : ℝ × ℝ} (hkp : src.kp = (↑kp.1, ↑kp.2)) :
    (∀ i, er - orderKx c.expansion kp wl i ^ 2 - orderKy c.expansion kp wl i ^ 2 ≠ 0) ∧
    (∀ i, et - orderKx c.expansion kp wl i ^ 2 - orderKy c.expansion kp wl i ^ 2 ≠ 0) ∧ er ≠ 0 := by
  obtain ⟨lr, lt, Ls', k, hd, hL, hexp, hi, hie, hwl, hk, hsrc, -⟩ := fresh_standard hc h1 h2
  obtain ⟨src', kxc, kyc, W0, V0, rr, rs, rt, st, h⟩ := solvedDevice hd ho h3
  have hs' := h.source
  rw [hs, Option.some.injEq] at hs'
  subst hs'
  rw [hs, Option.some.injEq] at hsrc
  have hw : src.wavelength = wl := by rw [hsrc]
  obtain ⟨rfl, rfl⟩ := h.real hkp
  rw [hw, hexp] at h
  exact ⟨(halfSpaceModes_outer h.ref_modes).1, (halfSpaceModes_outer h.trans_modes).1, by exact_mod_cast h.er_ne⟩

end Khepri
