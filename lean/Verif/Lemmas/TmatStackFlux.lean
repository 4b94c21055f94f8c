import Verif.Lemmas.TmatStack
import Verif.Lemmas.EzSpectrum

/-! What stacks of uniform layers of the T-matrix formulation send where. -/

set_option linter.unusedSectionVars false

namespace Khepri

open Matrix Complex

/-! ### Orders do not mix -/

section Mask
variable {g : Type} [Fintype g] [DecidableEq g]

/-- Amplitudes of each order times a weight. -/
noncomputable def orderWeights (w : g → ℂ) : Matrix ((g ⊕ g) ⊕ (g ⊕ g)) ((g ⊕ g) ⊕ (g ⊕ g)) ℂ :=
  diagonal (Sum.elim (Sum.elim w w) (Sum.elim w w))

theorem orderWeights_eq (w : g → ℂ) : orderWeights w = diagBlocks fun k => diagonal ![w k, w k, w k, w k] :=
  (diagBlocks_diagonal w w w w).symm

theorem orderWeights_comm (w : g → ℂ) (b : g → Matrix (Fin 4) (Fin 4) ℂ) :
    diagBlocks b * orderWeights w = orderWeights w * diagBlocks b := by
  rw [orderWeights_eq, diagBlocks_mul, diagBlocks_mul]
  congr 1
  funext k
  have e : diagonal ![w k, w k, w k, w k] = w k • (1 : Matrix (Fin 4) (Fin 4) ℂ) := by
    ext i j
    fin_cases i <;> fin_cases j <;> simp
  rw [e]
  simp

/-- An S-matrix that keeps orders apart. -/
theorem orders_apart {S : Matrix ((g ⊕ g) ⊕ (g ⊕ g)) ((g ⊕ g) ⊕ (g ⊕ g)) ℂ}
    (h : ∀ (w : g → ℂ) u v, TScatters S u v → TScatters S (orderWeights w *ᵥ u) (orderWeights w *ᵥ v))
    (w : g → ℂ) (p : (g ⊕ g) ⊕ (g ⊕ g) → ℂ) : S *ᵥ (orderWeights w *ᵥ p) = orderWeights w *ᵥ (S *ᵥ p) := by
  have h0 : TScatters S (Sum.elim (p ∘ Sum.inl) ((S *ᵥ p) ∘ Sum.inr)) (Sum.elim ((S *ᵥ p) ∘ Sum.inl) (p ∘ Sum.inr)) := by
    rw [TScatters, Sum.elim_comp_inl, Sum.elim_comp_inr, Sum.elim_comp_inl, Sum.elim_comp_inr, Sum.elim_comp_inl_inr,
      Sum.elim_comp_inl_inr]
  have h1 := h w _ _ h0
  rw [TScatters] at h1
  have e1 : ∀ (a b : g ⊕ g → ℂ), orderWeights w *ᵥ Sum.elim a b = Sum.elim (fun i => Sum.elim w w i * a i) (fun i => Sum.elim w w i * b i) := by
    intro a b
    funext i
    rw [orderWeights, mulVec_diagonal]
    rcases i with i | i <;> rfl
  rw [e1, e1, Sum.elim_comp_inl, Sum.elim_comp_inr, Sum.elim_comp_inl, Sum.elim_comp_inr, ← e1, ← e1, Sum.elim_comp_inl_inr,
    Sum.elim_comp_inl_inr] at h1
  exact h1.symm

end Mask

/-- The two-port formulas. -/
theorem two_port {B C ηI aF aB aT : ℂ} (h1 : aF + aB = B * aT) (h2 : ηI * (aF - aB) = C * aT) (hη : ηI ≠ 0) :
    (ηI * B + C) * aT = 2 * ηI * aF ∧ (ηI * B + C) * aB = (ηI * B - C) * aF := by
  refine ⟨by linear_combination (-ηI) * h1 - h2, ?_⟩
  have h3 : aF - aB = C * aT / ηI := by rw [← h2]; field_simp
  have e1 : aF = (B + C / ηI) * aT / 2 := by linear_combination (h1 + h3) / 2
  have e2 : aB = (B - C / ηI) * aT / 2 := by linear_combination (h1 - h3) / 2
  rw [e1, e2]
  field_simp

namespace TLattice
variable {pw : ℕ × ℕ} {a1 a2 : R2} {ei ee : PyNum} {l : TLattice} {jv1 : ℝ → ℝ} {wl : ℝ} {a b : ℝ}

theorem V_weights {eps : PyNum} {V : Matrix (TIdx l.shape) (TIdx l.shape) ℂ} {kp : ℂ × ℂ} (hV : l.V eps wl kp = .ok V)
    (w : Fin (l.shape.1 * l.shape.2) → ℂ) (u : TIdx l.shape → ℂ) : V *ᵥ (orderWeights w *ᵥ u) = orderWeights w *ᵥ (V *ᵥ u) := by
  obtain ⟨-, -, rfl⟩ := V_ok hV
  rw [mulVec_mulVec, mulVec_mulVec, orderWeights_comm]

theorem cascade_weights (h : TLattice.make pw a1 a2 ei ee = .ok l) (hs : l.shape = pw) {data : List (ℂ × ℝ)}
    {S V : Matrix (TIdx l.shape) (TIdx l.shape) ℂ} (hS : TCascade jv1 l wl (↑a, ↑b) data S)
    (hV : l.V l.epsI wl (↑a, ↑b) = .ok V) (w : Fin (l.shape.1 * l.shape.2) → ℂ) {u v : TIdx l.shape → ℂ} (huv : TScatters S u v) :
    TScatters S (orderWeights w *ᵥ u) (orderWeights w *ᵥ v) := by
  induction hS generalizing u v with
  | layer hu hS =>
    obtain ⟨f, hf, f0, fd⟩ := (layer_relates h hs hS hV u v).1 huv
    refine (layer_relates h hs hS hV _ _).2 ⟨fun z => orderWeights w *ᵥ f z, fun z i => ?_, ?_, ?_⟩
    · rw [coupling_uniform id hu, coupling_uniform (1 / ·) hu] at hf ⊢
      simp only [id] at hf ⊢
      rw [tsystem_uniform] at hf ⊢
      rw [mulVec_mulVec, orderWeights_comm, ← mulVec_mulVec]
      simp only [orderWeights, mulVec_diagonal]
      exact (hf z i).const_mul _
    · simp only [f0, V_weights hV]
    · simp only [fd, V_weights hV]
  | join _ _ hm ih1 ih2 =>
    obtain ⟨x, h1, h2⟩ := (multS_chain hm u v).1 huv
    exact (multS_chain hm _ _).2 ⟨_, ih1 h1, ih2 h2⟩

/-- The device has its conversion matrices. -/
theorem stack_V {data : List (ℂ × ℝ)} {S : Matrix (TIdx l.shape) (TIdx l.shape) ℂ} (hS : TStack jv1 l wl (↑a, ↑b) data S)
    (hI0 : l.epsI.val ≠ 0) (hIr : Rooted l.epsI) :
    wl ≠ 0 ∧ (∀ k, flatT l.shape (l.kz l.epsI wl (↑a, ↑b)) k ≠ 0) ∧ ∃ Vi Ve, l.V l.epsI wl (↑a, ↑b) = .ok Vi ∧ l.V l.epsE wl (↑a, ↑b) = .ok Ve := by
  have key : ∀ {B}, tmatInterface l wl (↑a, ↑b) = .ok B → wl ≠ 0 ∧ (∀ k, flatT l.shape (l.kz l.epsI wl (↑a, ↑b)) k ≠ 0) ∧
      ∃ Vi Ve, l.V l.epsI wl (↑a, ↑b) = .ok Vi ∧ l.V l.epsE wl (↑a, ↑b) = .ok Ve := by
    intro B hB
    simp only [tmatInterface, bind_eq_ok] at hB
    obtain ⟨U, hU, V', hV', -⟩ := hB
    obtain ⟨hw, -, hk, -⟩ := U_ok hU
    obtain ⟨Vi, hVi⟩ := V_exists (l := l) (kp := (↑a, ↑b)) hw hI0 hIr
    exact ⟨hw, hk, Vi, V', hVi, hV'⟩
  cases hS with
  | bare hB => exact key hB
  | layers _ hB _ => exact key hB

/-- Stacks of uniform layers keep orders apart. -/
theorem stack_weights (h : TLattice.make pw a1 a2 ei ee = .ok l) (hs : l.shape = pw) {data : List (ℂ × ℝ)}
    {S Vi Ve : Matrix (TIdx l.shape) (TIdx l.shape) ℂ} (hS : TStack jv1 l wl (↑a, ↑b) data S)
    (hVi : l.V l.epsI wl (↑a, ↑b) = .ok Vi) (hVe : l.V l.epsE wl (↑a, ↑b) = .ok Ve)
    (w : Fin (l.shape.1 * l.shape.2) → ℂ) (p : TIdx l.shape → ℂ) : S *ᵥ (orderWeights w *ᵥ p) = orderWeights w *ᵥ (S *ᵥ p) := by
  refine orders_apart (fun w u v huv => ?_) w p
  have key : ∀ {B : Matrix (TIdx l.shape) (TIdx l.shape) ℂ}, tmatInterface l wl (↑a, ↑b) = .ok B → ∀ {u v}, TScatters B u v →
      TScatters B (orderWeights w *ᵥ u) (orderWeights w *ᵥ v) := by
    intro B hB u v huv
    rw [interface_relates hB hVi hVe] at huv ⊢
    rw [V_weights hVi, V_weights hVe, huv]
  cases hS with
  | bare hB => exact key hB huv
  | layers hA hB hm =>
    obtain ⟨x, h1, h2⟩ := (multS_chain hm u v).1 huv
    exact (multS_chain hm _ _).2 ⟨_, cascade_weights h hs hA hVi w h1, key hB h2⟩

/-- What a stack of uniform layers does to one order. -/
theorem stack_order (h : TLattice.make pw a1 a2 ei ee = .ok l) (hs : l.shape = pw) {rI rE : ℝ} (hI : l.epsI.val = rI)
    (hI0 : 0 < rI) (hE : l.epsE.val = rE) (hE0 : 0 < rE) (hw : 0 < wl) {data : List (ℂ × ℝ)}
    {S Vi Ve : Matrix (TIdx l.shape) (TIdx l.shape) ℂ} (hS : TStack jv1 l wl (↑a, ↑b) data S)
    (hVi : l.V l.epsI wl (↑a, ↑b) = .ok Vi) (hVe : l.V l.epsE wl (↑a, ↑b) = .ok Ve) {k : Fin (l.shape.1 * l.shape.2)}
    (hkI : flatT l.shape (l.kz l.epsI wl (↑a, ↑b)) k ≠ 0) (hkE : flatT l.shape (l.kz l.epsE wl (↑a, ↑b)) k ≠ 0)
    (hc : l.wave (↑a, ↑b) k = 0 ∨ 1 / 2 ^ 52 ≤ uNorm (l.wave (↑a, ↑b) k) ^ 2)
    (hg : ∀ x ∈ data, x.1 ≠ l.inPlane wl (↑a, ↑b) k) {p : TIdx l.shape → ℂ} (hp : ∀ i, p (.inr i) = 0) (pol : Polarisation)
    {aF aB aT : ℂ} (hF : aF = match pol with
      | .te => p (.inl (.inl k))
      | .tm => -(l.cosz l.epsI wl (↑a, ↑b) k * p (.inl (.inr k))))
    (hB : aB = match pol with
      | .te => (S *ᵥ p) (.inr (.inl k))
      | .tm => l.cosz l.epsI wl (↑a, ↑b) k * (S *ᵥ p) (.inr (.inr k)))
    (hT : aT = match pol with
      | .te => (S *ᵥ p) (.inl (.inl k))
      | .tm => -(l.cosz l.epsE wl (↑a, ↑b) k * (S *ᵥ p) (.inl (.inr k)))) :
    let D := star (stackDenominator pol (l.inPlane wl (↑a, ↑b) k) (2 * Real.pi / wl) (conjLayers data) rI rE)
    let η := star (outerAdmittance pol (l.inPlane wl (↑a, ↑b) k) rI)
    let F := fun i => star (stackFields pol (l.inPlane wl (↑a, ↑b) k) (2 * Real.pi / wl) (conjLayers data) rE i)
    η ≠ 0 ∧ D * aT = 2 * η * aF ∧ D * aB = (η * F 0 - F 1) * aF := by
  intro D η F
  set κ2 := l.inPlane wl (↑a, ↑b) k with hκ2
  have huv : TScatters S (Sum.elim (p ∘ Sum.inl) ((S *ᵥ p) ∘ Sum.inr)) (Sum.elim ((S *ᵥ p) ∘ Sum.inl) (p ∘ Sum.inr)) := by
    rw [TScatters, Sum.elim_comp_inl, Sum.elim_comp_inr, Sum.elim_comp_inl, Sum.elim_comp_inr, Sum.elim_comp_inl_inr,
      Sum.elim_comp_inl_inr]
  have key := stack_pol h hs hS hVi hVe hc hg pol huv
  have oI := kz_outer (l := l) (a := a) (b := b) hI hw k
  have oE := kz_outer (l := l) (a := a) (b := b) hE hw k
  have cI := cosz_outer (l := l) (a := a) (b := b) hI hI0 hw k
  have cE := cosz_outer (l := l) (a := a) (b := b) hE hE0 hw k
  rw [← hκ2] at oI oE cI cE key
  have hκ0 : ((2 * Real.pi / wl : ℝ) : ℂ) ≠ 0 := by
    have := Real.pi_pos
    exact_mod_cast (by positivity : 2 * Real.pi / wl ≠ 0)
  have zI : star (outerKz (rI - κ2)) ≠ 0 := by rw [← oI]; exact div_ne_zero hkI hκ0
  have zE : star (outerKz (rE - κ2)) ≠ 0 := by rw [← oE]; exact div_ne_zero hkE hκ0
  have sI : ((Real.sqrt rI : ℝ) : ℂ) ≠ 0 := by exact_mod_cast (Real.sqrt_pos.2 hI0).ne'
  have sE : ((Real.sqrt rE : ℝ) : ℂ) ≠ 0 := by exact_mod_cast (Real.sqrt_pos.2 hE0).ne'
  have qI : (rI : ℂ) = ((Real.sqrt rI : ℝ) : ℂ) ^ 2 := by rw [← ofReal_pow, Real.sq_sqrt hI0.le]
  have qE : (rE : ℂ) = ((Real.sqrt rE : ℝ) : ℂ) ^ 2 := by rw [← ofReal_pow, Real.sq_sqrt hE0.le]
  -- both sides as port vectors
  have ends : l.polAt (↑a, ↑b) pol k (Vi *ᵥ (Sum.elim (p ∘ Sum.inl) ((S *ᵥ p) ∘ Sum.inr))) = ![aF + aB, η * (aF - aB)] ∧
      l.polAt (↑a, ↑b) pol k (Ve *ᵥ (Sum.elim ((S *ᵥ p) ∘ Sum.inl) (p ∘ Sum.inr))) =
        ![aT, star (outerAdmittance pol κ2 rE) * aT] ∧ η ≠ 0 := by
    cases pol with
    | te =>
      simp only at hF hB hT
      refine ⟨?_, ?_, zI⟩
      · rw [(polAt_V hVi _ k).1, oI, hF, hB]; rfl
      · rw [(polAt_V hVe _ k).1, oE, hT]
        simp only [Sum.elim_inl, Sum.elim_inr, Function.comp, hp, add_zero, sub_zero]
        rfl
    | tm =>
      simp only at hF hB hT
      have eI : η = rI / star (outerKz (rI - κ2)) := by simp [η, outerAdmittance, Polarisation.admittance, hκ2]
      have eE : star (outerAdmittance Polarisation.tm κ2 rE) = rE / star (outerKz (rE - κ2)) := by
        simp [outerAdmittance, Polarisation.admittance]
      refine ⟨?_, ?_, by rw [eI]; exact div_ne_zero (by exact_mod_cast hI0.ne') zI⟩
      · rw [(polAt_V hVi _ k).2, hF, hB, eI, cI, hI, csqrt_pos hI0, qI]
        simp only [Sum.elim_inl, Sum.elim_inr, Function.comp]
        generalize star (outerKz (rI - κ2)) = z at *
        funext i
        fin_cases i
        · simp; ring
        · simp; field_simp; ring
      · rw [(polAt_V hVe _ k).2, hT, eE, cE, hE, csqrt_pos hE0, qE]
        simp only [Sum.elim_inl, Sum.elim_inr, Function.comp, hp]
        generalize star (outerKz (rE - κ2)) = z at *
        funext i
        fin_cases i
        · simp
        · simp; field_simp
  obtain ⟨e1, e2, hη⟩ := ends
  rw [e1, e2] at key
  have hM : (abeles pol κ2 (2 * Real.pi / wl) (conjLayers data)).map star *ᵥ ![aT, star (outerAdmittance pol κ2 rE) * aT] =
      fun i => F i * aT := by
    funext i
    simp [F, stackFields, mulVec, dotProduct, Fin.sum_univ_two]
    ring
  rw [hM] at key
  have k1 := congrFun key 0
  have k2 := congrFun key 1
  simp only [Matrix.cons_val_zero, Matrix.cons_val_one] at k1 k2
  obtain ⟨r1, r2⟩ := two_port k1 k2 hη
  have hD : D = η * F 0 + F 1 := by simp [D, η, F, stackDenominator]
  rw [hD]
  exact ⟨hη, r1, r2⟩

end TLattice

end Khepri
