import Verif.Spec.TmatSymmetry
import Verif.Lemmas.TmatReciprocity
import Verif.Lemmas.Moved

/-!
Waves carried from order to order in the T-matrix formulation.
-/

set_option linter.unusedSectionVars false

namespace Khepri

open Matrix Complex

section
variable {g : Type} [Fintype g] [DecidableEq g] {ρ : g → g} {d : g → ℂ}
  {S S' S1 S2 S1' S2' : Matrix ((g ⊕ g) ⊕ (g ⊕ g)) ((g ⊕ g) ⊕ (g ⊕ g)) ℂ}

theorem onOrders_onOrders (hρ : ∀ k, ρ (ρ k) = k) (x : (g ⊕ g) ⊕ (g ⊕ g)) : onOrders ρ (onOrders ρ x) = x := by
  rcases x with (x | x) | (x | x) <;> simp [onOrders, hρ]

theorem waveOrder_onOrders (x : (g ⊕ g) ⊕ (g ⊕ g)) : waveOrder (onOrders ρ x) = ρ (waveOrder x) := by
  rcases x with (x | x) | (x | x) <;> rfl

theorem carry_onOrders (hρ : ∀ k, ρ (ρ k) = k) (p : (g ⊕ g) ⊕ (g ⊕ g) → ℂ) (x : (g ⊕ g) ⊕ (g ⊕ g)) :
    carry ρ d p (onOrders ρ x) = d (waveOrder x) * p x := by
  rw [carry, onOrders_onOrders hρ, waveOrder_onOrders, hρ]

theorem sum_onOrders (hρ : ∀ k, ρ (ρ k) = k) (f : (g ⊕ g) ⊕ (g ⊕ g) → ℂ) : ∑ x, f (onOrders ρ x) = ∑ x, f x :=
  Equiv.sum_comp (Function.Involutive.toPerm (onOrders ρ) (onOrders_onOrders hρ)) f

theorem carried_mulVec (hρ : ∀ k, ρ (ρ k) = k) :
    TCarried ρ d S S' ↔ ∀ p, S' *ᵥ carry ρ d p = carry ρ d (S *ᵥ p) := by
  constructor
  · intro h p
    funext x
    rw [← onOrders_onOrders hρ x, carry_onOrders hρ]
    generalize onOrders ρ x = y
    simp only [mulVec, dotProduct]
    rw [← sum_onOrders hρ, Finset.mul_sum]
    refine Finset.sum_congr rfl fun z _ => ?_
    rw [carry_onOrders hρ, ← mul_assoc, h y z, mul_assoc]
  · intro h x y
    have := congrFun (h (Pi.single y 1)) (onOrders ρ x)
    rw [carry_onOrders hρ, mulVec_single_one, col_apply] at this
    rw [← this]
    have e : carry ρ d (Pi.single y 1) = Pi.single (onOrders ρ y) (d (waveOrder y)) := by
      funext z
      by_cases hz : z = onOrders ρ y
      · rw [hz, carry_onOrders hρ, Pi.single_eq_same, Pi.single_eq_same, mul_one]
      · rw [Pi.single_eq_of_ne hz, carry, Pi.single_eq_of_ne, mul_zero]
        rintro rfl
        exact hz (onOrders_onOrders hρ z).symm
    rw [e, mulVec_single]
    simp

theorem carried_scatters (hρ : ∀ k, ρ (ρ k) = k) :
    TCarried ρ d S S' ↔ ∀ u v, TScatters S u v → TScatters S' (carry ρ d u) (carry ρ d v) := by
  have h1 : ∀ u v : (g ⊕ g) ⊕ (g ⊕ g) → ℂ, Sum.elim (carry ρ d u ∘ Sum.inl) (carry ρ d v ∘ Sum.inr) =
      carry ρ d (Sum.elim (u ∘ Sum.inl) (v ∘ Sum.inr)) := by
    intro u v
    funext x
    rcases x with (x | x) | (x | x) <;> rfl
  rw [carried_mulVec hρ]
  constructor
  · intro h u v huv
    rw [TScatters] at huv ⊢
    rw [h1, h1, huv, h]
  · intro h p
    have := h _ _ (tscatters_of S p)
    rw [TScatters, h1, h1] at this
    have e : Sum.elim ((Sum.elim (fun i => p (.inl i)) fun i => (S *ᵥ p) (.inr i)) ∘ Sum.inl)
      ((Sum.elim (fun i => (S *ᵥ p) (.inl i)) fun i => p (.inr i)) ∘ Sum.inr) = p := by
      funext i; rcases i with i | i <;> rfl
    have e' : Sum.elim ((Sum.elim (fun i => (S *ᵥ p) (.inl i)) fun i => p (.inr i)) ∘ Sum.inl)
      ((Sum.elim (fun i => p (.inl i)) fun i => (S *ᵥ p) (.inr i)) ∘ Sum.inr) = S *ᵥ p := by
      funext i; rcases i with i | i <;> rfl
    rw [e, e'] at this
    exact this.symm

theorem carried_cascade (hρ : ∀ k, ρ (ρ k) = k) (h1 : TCarried ρ d S1 S1') (h2 : TCarried ρ d S2 S2')
    (h : multS S1 S2 = .ok S) (h' : multS S1' S2' = .ok S') : TCarried ρ d S S' := by
  rw [carried_scatters hρ] at h1 h2 ⊢
  intro u w huw
  obtain ⟨v, hv1, hv2⟩ := (multS_chain h u w).1 huw
  exact (multS_chain h' _ _).2 ⟨_, h1 u v hv1, h2 v w hv2⟩

theorem mulVec_carry (hρ : ∀ k, ρ (ρ k) = k) {e e' : Matrix g g ℂ} (h : ∀ i j, e' (ρ i) (ρ j) * d j = d i * e i j)
    (x : g → ℂ) (k : g) : (e' *ᵥ fun j => d (ρ j) * x (ρ j)) k = d (ρ k) * (e *ᵥ x) (ρ k) := by
  simp only [mulVec, dotProduct]
  rw [← Equiv.sum_comp (Function.Involutive.toPerm ρ hρ) fun j => e' k j * (d (ρ j) * x (ρ j)), Finset.mul_sum]
  refine Finset.sum_congr rfl fun j _ => ?_
  show e' k (ρ j) * (d (ρ (ρ j)) * x (ρ (ρ j))) = _
  rw [hρ]
  have := h (ρ k) j
  rw [hρ] at this
  rw [← mul_assoc, this, mul_assoc]

/-- Systems of carried patterns have the carried solutions. -/
theorem tsystem_carry (hρ : ∀ k, ρ (ρ k) = k) {u u' : g → ℂ × ℂ} {σ : ℂ} (hσ : σ * σ = 1)
    (hu : ∀ k, u' (ρ k) = (σ * (u k).1, σ * (u k).2)) {e e' ei ei' : Matrix g g ℂ}
    (he : ∀ i j, e' (ρ i) (ρ j) * d j = d i * e i j) (hei : ∀ i j, ei' (ρ i) (ρ j) * d j = d i * ei i j) (k0 : ℂ)
    (f : (g ⊕ g) ⊕ (g ⊕ g) → ℂ) :
    tsystem u' e' ei' k0 *ᵥ carry ρ d f = carry ρ d (tsystem u e ei k0 *ᵥ f) := by
  have hu' : ∀ k, u' k = (σ * (u (ρ k)).1, σ * (u (ρ k)).2) := fun k => by rw [← hu, hρ]
  have h1 := mulVec_carry hρ he
  have h2 := mulVec_carry hρ hei
  obtain ⟨sv, hsv⟩ : ∃ sv : g → ℂ, sv = fun i => (u i).1 * f (.inr (.inr i)) - (u i).2 * f (.inr (.inl i)) := ⟨_, rfl⟩
  have hs : (fun j => (u' j).1 * carry ρ d f (.inr (.inr j)) - (u' j).2 * carry ρ d f (.inr (.inl j))) =
      fun j => d (ρ j) * (σ • sv) (ρ j) := by
    funext j
    rw [hu', hsv]
    simp only [carry, waveOrder, onOrders, Sum.map_inr, Sum.map_inl, Sum.elim_inr, Sum.elim_inl, id, Pi.smul_apply, smul_eq_mul]
    ring
  have hw : ∀ k, (ei' *ᵥ fun j => (u' j).1 * carry ρ d f (.inr (.inr j)) - (u' j).2 * carry ρ d f (.inr (.inl j))) k =
      d (ρ k) * (σ * (ei *ᵥ sv) (ρ k)) := by
    intro k
    rw [hs, h2 (σ • sv) k, mulVec_smul, Pi.smul_apply, smul_eq_mul]
  have hx : ∀ k, (e' *ᵥ fun j => carry ρ d f (.inl (.inl j))) k = d (ρ k) * (e *ᵥ fun j => f (.inl (.inl j))) (ρ k) :=
    h1 fun j => f (.inl (.inl j))
  have hy : ∀ k, (e' *ᵥ fun j => carry ρ d f (.inl (.inr j))) k = d (ρ k) * (e *ᵥ fun j => f (.inl (.inr j))) (ρ k) :=
    h1 fun j => f (.inl (.inr j))
  funext x
  rcases x with (k | k) | (k | k)
  · rw [(tsystem_mulVec u' e' ei' k0 _ k).1, hw k]
    have := (tsystem_mulVec u e ei k0 f (ρ k)).1
    rw [← hsv] at this
    simp only [carry, waveOrder, onOrders, Sum.map_inr, Sum.map_inl, Sum.elim_inr, Sum.elim_inl, id, this, hu' k]
    linear_combination (-(d (ρ k) * (I * mu0c / k0 * (u (ρ k)).1 * (ei *ᵥ sv) (ρ k)))) * hσ
  · rw [(tsystem_mulVec u' e' ei' k0 _ k).2.1, hw k]
    have := (tsystem_mulVec u e ei k0 f (ρ k)).2.1
    rw [← hsv] at this
    simp only [carry, waveOrder, onOrders, Sum.map_inr, Sum.map_inl, Sum.elim_inr, Sum.elim_inl, id, this, hu' k]
    linear_combination (-(d (ρ k) * (I * mu0c / k0 * (u (ρ k)).2 * (ei *ᵥ sv) (ρ k)))) * hσ
  · rw [(tsystem_mulVec u' e' ei' k0 _ k).2.2.1, hy k]
    have := (tsystem_mulVec u e ei k0 f (ρ k)).2.2.1
    simp only [carry, waveOrder, onOrders, Sum.map_inr, Sum.map_inl, Sum.elim_inr, Sum.elim_inl, id, this, hu' k]
    linear_combination (d (ρ k) * (I / mu0c / k0 * (u (ρ k)).1 * ((u (ρ k)).1 * f (.inl (.inr (ρ k))) - (u (ρ k)).2 * f (.inl (.inl (ρ k)))))) * hσ
  · rw [(tsystem_mulVec u' e' ei' k0 _ k).2.2.2, hx k]
    have := (tsystem_mulVec u e ei k0 f (ρ k)).2.2.2
    simp only [carry, waveOrder, onOrders, Sum.map_inr, Sum.map_inl, Sum.elim_inr, Sum.elim_inl, id, this, hu' k]
    linear_combination (d (ρ k) * (I / mu0c / k0 * (u (ρ k)).2 * ((u (ρ k)).1 * f (.inl (.inr (ρ k))) - (u (ρ k)).2 * f (.inl (.inl (ρ k)))))) * hσ

/-- Media whose waves are carried with `c` have fields carried with `d`. -/
theorem diagBlocks_carry (hρ : ∀ k, ρ (ρ k) = k) {c : g → ℂ} {b b' : g → Matrix (Fin 4) (Fin 4) ℂ}
    (h : ∀ k, c k • b' (ρ k) = d k • b k) (p : (g ⊕ g) ⊕ (g ⊕ g) → ℂ) :
    diagBlocks b' *ᵥ carry ρ c p = carry ρ d (diagBlocks b *ᵥ p) := by
  have h' : ∀ k i j, b' k i j * c (ρ k) = d (ρ k) * b (ρ k) i j := fun k i j => by
    have := congrFun (congrFun (h (ρ k)) i) j
    simp only [hρ, Matrix.smul_apply, smul_eq_mul] at this
    rw [mul_comm, this]
  funext x
  rcases x with (k | k) | (k | k)
  · rw [(diagBlocks_mulVec b' _ k).1]
    have := (diagBlocks_mulVec b p (ρ k)).1
    simp only [carry, waveOrder, onOrders, Sum.map_inr, Sum.map_inl, Sum.elim_inr, Sum.elim_inl, id, this, ← mul_assoc, h']
    ring
  · rw [(diagBlocks_mulVec b' _ k).2.1]
    have := (diagBlocks_mulVec b p (ρ k)).2.1
    simp only [carry, waveOrder, onOrders, Sum.map_inr, Sum.map_inl, Sum.elim_inr, Sum.elim_inl, id, this, ← mul_assoc, h']
    ring
  · rw [(diagBlocks_mulVec b' _ k).2.2.1]
    have := (diagBlocks_mulVec b p (ρ k)).2.2.1
    simp only [carry, waveOrder, onOrders, Sum.map_inr, Sum.map_inl, Sum.elim_inr, Sum.elim_inl, id, this, ← mul_assoc, h']
    ring
  · rw [(diagBlocks_mulVec b' _ k).2.2.2]
    have := (diagBlocks_mulVec b p (ρ k)).2.2.2
    simp only [carry, waveOrder, onOrders, Sum.map_inr, Sum.map_inl, Sum.elim_inr, Sum.elim_inl, id, this, ← mul_assoc, h']
    ring

end

namespace TLattice
variable {jv1 : ℝ → ℝ} {pw : ℕ × ℕ} {a1 a2 : R2} {ei ee : PyNum} {l : TLattice} {wl a b a' b' : ℝ}
  {islands islands' : List (TShape × ℂ)} {host : ℂ} {ρ : Fin (l.shape.1 * l.shape.2) → Fin (l.shape.1 * l.shape.2)}
  {c d : Fin (l.shape.1 * l.shape.2) → ℂ}

/-- Layers of carried patterns. -/
theorem layer_carry (h : TLattice.make pw a1 a2 ei ee = .ok l) (hs : l.shape = pw) (hρ : ∀ k, ρ (ρ k) = k) {σ : ℂ}
    (hσ : σ * σ = 1) (hu : ∀ k, l.wave (↑a', ↑b') (ρ k) = (σ * (l.wave (↑a, ↑b) k).1, σ * (l.wave (↑a, ↑b) k).2))
    (he : ∀ (f : ℂ → ℂ) i j, l.coupling jv1 islands' host f (ρ i) (ρ j) * d j = d i * l.coupling jv1 islands host f i j)
    {depth : ℝ} {k k' : ℕ} {S V S' V' : Matrix (TIdx l.shape) (TIdx l.shape) ℂ}
    (hS : tmatScattering jv1 l islands host wl (↑a, ↑b) depth k = .ok S) (hV : l.V l.epsI wl (↑a, ↑b) = .ok V)
    (hS' : tmatScattering jv1 l islands' host wl (↑a', ↑b') depth k' = .ok S') (hV' : l.V l.epsI wl (↑a', ↑b') = .ok V')
    (hVV : ∀ p, V' *ᵥ carry ρ c p = carry ρ d (V *ᵥ p)) : TCarried ρ c S S' := by
  rw [carried_scatters hρ]
  intro u v huv
  obtain ⟨f, hf, f0, f1⟩ := (layer_relates h hs hS hV u v).1 huv
  refine (layer_relates h hs hS' hV' _ _).2 ⟨fun z => carry ρ d (f z), fun z i => ?_, ?_, ?_⟩
  · rw [tsystem_carry hρ hσ hu (he id) (he (1 / ·))]
    exact (hf z (onOrders ρ i)).const_mul _
  · show carry ρ d (f 0) = _
    rw [f0, hVV]
  · show carry ρ d (f depth) = _
    rw [f1, hVV]

theorem interface_carry (hρ : ∀ k, ρ (ρ k) = k) {S Vi Ve S' Vi' Ve' : Matrix (TIdx l.shape) (TIdx l.shape) ℂ}
    (hS : tmatInterface l wl (↑a, ↑b) = .ok S) (hi : l.V l.epsI wl (↑a, ↑b) = .ok Vi) (he : l.V l.epsE wl (↑a, ↑b) = .ok Ve)
    (hS' : tmatInterface l wl (↑a', ↑b') = .ok S') (hi' : l.V l.epsI wl (↑a', ↑b') = .ok Vi')
    (he' : l.V l.epsE wl (↑a', ↑b') = .ok Ve') (h1 : ∀ p, Vi' *ᵥ carry ρ c p = carry ρ d (Vi *ᵥ p))
    (h2 : ∀ p, Ve' *ᵥ carry ρ c p = carry ρ d (Ve *ᵥ p)) : TCarried ρ c S S' := by
  rw [carried_scatters hρ]
  intro u v huv
  refine (interface_relates hS' hi' he' _ _).2 ?_
  rw [h1, h2, (interface_relates hS hi he u v).1 huv]

theorem V_move {eps : PyNum} {V : Matrix (TIdx l.shape) (TIdx l.shape) ℂ} (hV : l.V eps wl (↑a, ↑b) = .ok V)
    (p : TIdx l.shape → ℂ) : V *ᵥ carry id d p = carry id d (V *ᵥ p) := by
  obtain ⟨-, -, rfl⟩ := V_ok hV
  exact diagBlocks_carry (fun _ => rfl) (fun _ => rfl) p

theorem V_half (h : TLattice.make pw a1 a2 ei ee = .ok l) (hs : l.shape = pw) (h1 : pw.1 % 2 = 1) (h2 : pw.2 % 2 = 1)
    {eps : PyNum} {V V' : Matrix (TIdx l.shape) (TIdx l.shape) ℂ} (hV : l.V eps wl (↑a, ↑b) = .ok V)
    (hV' : l.V eps wl (((-a : ℝ) : ℂ), ((-b : ℝ) : ℂ)) = .ok V') (p : TIdx l.shape → ℂ) :
    V' *ᵥ carry Fin.rev (l.flip (↑a, ↑b)) p = carry Fin.rev (fun _ => 1) (V *ᵥ p) := by
  obtain ⟨-, -, rfl⟩ := V_ok hV
  obtain ⟨-, -, rfl⟩ := V_ok hV'
  refine diagBlocks_carry Fin.rev_rev (fun k => ?_) p
  have hc : l.cosz eps wl (((-a : ℝ) : ℂ), ((-b : ℝ) : ℂ)) k.rev = l.cosz eps wl (↑a, ↑b) k := by
    rw [cosz, cosz, kz_rev h hs h1 h2]
  have hf : l.flip (↑a, ↑b) k * l.flip (↑a, ↑b) k = 1 := by unfold flip; split_ifs <;> norm_num
  rw [dir_rev h hs h1 h2, hc, one_smul]
  ext i j
  generalize l.flip (↑a, ↑b) k = s at hf
  generalize l.cosz eps wl (↑a, ↑b) k = c
  generalize csqrt eps.val / (mu0c : ℂ) = hv
  generalize (l.dir (↑a, ↑b) k).1 = x
  generalize (l.dir (↑a, ↑b) k).2 = y
  fin_cases i <;> fin_cases j <;> simp [vBlock]
  all_goals first
    | linear_combination x * hf
    | linear_combination (-x) * hf
    | linear_combination y * hf
    | linear_combination (c * x) * hf
    | linear_combination (-c * x) * hf
    | linear_combination (c * y) * hf
    | linear_combination (-c * y) * hf
    | linear_combination (hv * x) * hf
    | linear_combination (-hv * x) * hf
    | linear_combination (hv * y) * hf
    | linear_combination (hv * c * x) * hf
    | linear_combination (-hv * c * x) * hf
    | linear_combination (hv * c * y) * hf

theorem tPattern_move (v : R2) (f : ℂ → ℂ) (islands : List (TShape × ℂ)) :
    tPattern f (islands.map fun d => (d.1.move v, d.2)) = (tPattern f islands).map fun i => ⟨i.shape.move v, i.eps⟩ := by
  simp only [tPattern, List.filterMap_map, List.map_filterMap]
  congr 1
  funext d
  obtain ⟨sh, eps⟩ := d
  cases sh <;> rfl

theorem tPattern_half (f : ℂ → ℂ) (islands : List (TShape × ℂ)) :
    tPattern f (islands.map fun d => (d.1.halfTurn, d.2)) = (tPattern f islands).map fun i => ⟨i.shape.halfTurn, i.eps⟩ := by
  simp only [tPattern, List.filterMap_map, List.map_filterMap]
  congr 1
  funext d
  obtain ⟨sh, eps⟩ := d
  cases sh <;> rfl

theorem coupling_move (h : TLattice.make pw a1 a2 ei ee = .ok l) (hs : l.shape = pw) (hb : Periods l.b) (v : R2) (f : ℂ → ℂ)
    (i j : Fin (l.shape.1 * l.shape.2)) :
    l.coupling jv1 (islands.map fun d => (d.1.move v, d.2)) host f i j * l.movePhase v j =
      l.movePhase v i * l.coupling jv1 islands host f i j := by
  have hc : ClearOf (latticeVec l.b (l.ord i - l.ord j)) := by rw [latticeVec_eq]; exact hb _
  rw [coupling_eq h hs, coupling_eq h hs, tPattern_move, islandCoef_move v hc]
  have e1 := ord_wave h hs i
  have e2 := ord_wave h hs j
  have e1' := congrArg Prod.fst e1
  have e1'' := congrArg Prod.snd e1
  have e2' := congrArg Prod.fst e2
  have e2'' := congrArg Prod.snd e2
  simp only at e1' e1'' e2' e2''
  have e3 : latticeVec l.b (l.ord i - l.ord j) = latticeVec l.b (l.ord i) - latticeVec l.b (l.ord j) := by
    simp only [latticeVec, Prod.fst_sub, Prod.snd_sub, Int.cast_sub, Prod.mk_sub_mk, Prod.mk.injEq]
    constructor <;> ring
  rw [movePhase, movePhase, e1', e1'', e2', e2'', mul_right_comm, ← exp_add]
  congr 2
  rw [e3]
  simp only [Prod.fst_sub, Prod.snd_sub]
  push_cast
  ring

theorem shapeValue_half (sh : Shape) (g : R2) (sigma : ℝ) :
    shapeValue jv1 sh.halfTurn (-g) sigma = shapeValue jv1 sh g sigma := by
  cases sh with
  | rectangle a b c d =>
    simp only [Shape.halfTurn, shapeValue, transformShape, transformRectangle, Prod.fst_neg, Prod.snd_neg]
    push_cast
    rw [show -I * -(g.1 : ℂ) * (-c - -a) = -I * g.1 * (c - a) by ring, show -I * -(g.2 : ℂ) * (-d - -b) = -I * g.2 * (d - b) by ring,
      show (-(c : ℂ) - -a) * (-d - -b) = (c - a) * (d - b) by ring,
      show -I * (-(a : ℂ) * -g.1 + -b * -g.2) = -I * (a * g.1 + b * g.2) by ring]
  | disc a b r =>
    have e : -I * (((-a : ℝ) : ℂ) * ((-g.1 : ℝ) : ℂ) + ((-b : ℝ) : ℂ) * ((-g.2 : ℝ) : ℂ)) = -I * (a * g.1 + b * g.2) := by
      push_cast; ring
    simp only [Shape.halfTurn, shapeValue, transformShape, transformDisc, Prod.fst_neg, Prod.snd_neg, abs_neg, neg_mul_neg, e]
  | ellipse x y a b rot => rfl

theorem coupling_half (h : TLattice.make pw a1 a2 ei ee = .ok l) (hs : l.shape = pw) (h1 : pw.1 % 2 = 1) (h2 : pw.2 % 2 = 1)
    (f : ℂ → ℂ) (i j : Fin (l.shape.1 * l.shape.2)) :
    l.coupling jv1 (islands.map fun d => (d.1.halfTurn, d.2)) host f i.rev j.rev = l.coupling jv1 islands host f i j := by
  have o := ord_rev (l := l) (by rw [hs]; exact h1) (by rw [hs]; exact h2)
  rw [coupling_eq h hs, coupling_eq h hs, tPattern_half, o, o,
    show -l.ord i - -l.ord j = -(l.ord i - l.ord j) by abel]
  simp only [islandCoef, List.map_map, latticeVec_neg]
  congr 1
  · have : -(l.ord i - l.ord j) = (0, 0) ↔ l.ord i - l.ord j = (0, 0) := neg_eq_zero
    simp only [this]
  · congr 1
    refine List.map_congr_left fun s _ => ?_
    simp only [Function.comp, shapeValue_half]

theorem movePhase_norm (v : R2) (k : Fin (l.shape.1 * l.shape.2)) : ‖l.movePhase v k‖ = 1 := by
  rw [movePhase, show -(I * (((flatT l.shape l.gx k : ℝ) : ℂ) * v.1 + flatT l.shape l.gy k * v.2)) =
    ((-(flatT l.shape l.gx k * v.1 + flatT l.shape l.gy k * v.2) : ℝ) : ℂ) * I by push_cast; ring, norm_exp_ofReal_mul_I]

theorem flip_norm (kp : ℂ × ℂ) (k : Fin (l.shape.1 * l.shape.2)) : ‖l.flip kp k‖ = 1 := by
  unfold flip; split_ifs <;> simp

/-- Powers are those of the carried waves. -/
theorem fluxes_carry (hρ : ∀ k, ρ (ρ k) = k) (hd : ∀ k, ‖d k‖ = 1)
    (hk : ∀ eps k, flatT l.shape (l.kz eps wl (0, 0)) (ρ k) = flatT l.shape (l.kz eps wl (0, 0)) k)
    (pin pout : TIdx l.shape → ℂ) (kp kp' : ℂ × ℂ) :
    computeFluxes l wl (carry ρ d pin) (carry ρ d pout) kp' = computeFluxes l wl pin pout kp := by
  have hn : ∀ (p : TIdx l.shape → ℂ) x, ‖carry ρ d p x‖ = ‖p (onOrders ρ x)‖ := fun p x => by
    rw [carry, norm_mul, hd, one_mul]
  have hsum : ∀ f : Fin (l.shape.1 * l.shape.2) → ℂ, ∑ k, f (ρ k) = ∑ k, f k := fun f =>
    Equiv.sum_comp (Function.Involutive.toPerm ρ hρ) f
  have e1 : ∑ k, (computeCurrents l wl (carry ρ d pin) (carry ρ d pout) (0, 0)).1 k =
      ∑ k, (computeCurrents l wl pin pout (0, 0)).1 k := by
    rw [← hsum]
    refine Finset.sum_congr rfl fun k _ => ?_
    simp only [computeCurrents, hn, hk, onOrders, Sum.map_inl, Sum.map_inr, hρ]
  have e2 : ∑ k, (computeCurrents l wl (carry ρ d pin) (carry ρ d pout) (0, 0)).2.1 k =
      ∑ k, (computeCurrents l wl pin pout (0, 0)).2.1 k := by
    rw [← hsum]
    refine Finset.sum_congr rfl fun k _ => ?_
    simp only [computeCurrents, hn, hk, onOrders, Sum.map_inl, Sum.map_inr, hρ]
  have e3 : ∑ k, (computeCurrents l wl (carry ρ d pin) (carry ρ d pout) (0, 0)).2.2 k =
      ∑ k, (computeCurrents l wl pin pout (0, 0)).2.2 k := by
    rw [← hsum]
    refine Finset.sum_congr rfl fun k _ => ?_
    simp only [computeCurrents, hn, hk, onOrders, Sum.map_inl, Sum.map_inr, hρ]
  simp only [computeFluxes, e1, e2, e3]

end TLattice

end Khepri
