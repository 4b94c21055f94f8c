import Verif.Spec.TmatTurned
import Verif.Lemmas.TmatReciprocity
import Verif.Lemmas.Ez
import Verif.Props.TmatPhysics

/-!
T-matrix devices turned over.
-/

set_option linter.unusedSectionVars false

namespace Khepri

open Matrix Complex

section
variable {g : Type} [Fintype g] [DecidableEq g]

/-- The amplitudes seen from the other side. -/
def faceTurn (u : (g ⊕ g) ⊕ (g ⊕ g) → ℂ) : (g ⊕ g) ⊕ (g ⊕ g) → ℂ := fun x => turnSign x * u x.swap

/-- The fields in a mirror across `z`: the magnetic field changes sign. -/
def mirror (F : (g ⊕ g) ⊕ (g ⊕ g) → ℂ) : (g ⊕ g) ⊕ (g ⊕ g) → ℂ := Sum.elim (fun i => F (.inl i)) (fun i => -F (.inr i))

theorem mirror_mirror (F : (g ⊕ g) ⊕ (g ⊕ g) → ℂ) : mirror (mirror F) = F := by
  funext x; rcases x with x | x <;> simp [mirror]

theorem turnSign_swap (x : (g ⊕ g) ⊕ (g ⊕ g)) : turnSign x.swap = turnSign x := by
  rcases x with (x | x) | (x | x) <;> rfl

theorem turnSign_sq (x : (g ⊕ g) ⊕ (g ⊕ g)) : turnSign x * turnSign x = 1 := by
  rcases x with (x | x) | (x | x) <;> simp [turnSign]

theorem turn_turn (u : (g ⊕ g) ⊕ (g ⊕ g) → ℂ) : faceTurn (faceTurn u) = u := by
  funext x
  rw [faceTurn, faceTurn, turnSign_swap, Sum.swap_swap, ← mul_assoc, turnSign_sq, one_mul]

theorem turned_of_scatters {S S' : Matrix ((g ⊕ g) ⊕ (g ⊕ g)) ((g ⊕ g) ⊕ (g ⊕ g)) ℂ}
    (h : ∀ u v, TScatters S u v → TScatters S' (faceTurn v) (faceTurn u)) : TTurned S S' := by
  have key : ∀ p, S' *ᵥ faceTurn p = faceTurn (S *ᵥ p) := by
    intro p
    have e1 : TScatters S (Sum.elim (p ∘ Sum.inl) ((S *ᵥ p) ∘ Sum.inr)) (Sum.elim ((S *ᵥ p) ∘ Sum.inl) (p ∘ Sum.inr)) := by
      rw [TScatters]
      simp only [Sum.elim_comp_inl, Sum.elim_comp_inr, Sum.elim_comp_inl_inr]
    have e2 := h _ _ e1
    rw [TScatters] at e2
    have e3 : faceTurn p = Sum.elim (faceTurn (Sum.elim ((S *ᵥ p) ∘ Sum.inl) (p ∘ Sum.inr)) ∘ Sum.inl)
        (faceTurn (Sum.elim (p ∘ Sum.inl) ((S *ᵥ p) ∘ Sum.inr)) ∘ Sum.inr) := by
      funext x; rcases x with x | x <;> simp [faceTurn]
    have e4 : faceTurn (S *ᵥ p) = Sum.elim (faceTurn (Sum.elim (p ∘ Sum.inl) ((S *ᵥ p) ∘ Sum.inr)) ∘ Sum.inl)
        (faceTurn (Sum.elim ((S *ᵥ p) ∘ Sum.inl) (p ∘ Sum.inr)) ∘ Sum.inr) := by
      funext x; rcases x with x | x <;> simp [faceTurn]
    rw [e3, ← e2, e4]
  intro x y
  have e : faceTurn (Pi.single y.swap 1) = Pi.single y (turnSign y) := by
    funext z
    rw [faceTurn]
    by_cases hz : z = y
    · subst hz; simp
    · have : z.swap ≠ y.swap := fun h => hz (by rw [← Sum.swap_swap z, h, Sum.swap_swap])
      rw [Pi.single_eq_of_ne this, Pi.single_eq_of_ne hz, mul_zero]
  have k := congrFun (key (Pi.single y.swap 1)) x
  rw [e, faceTurn, mulVec_single, mulVec_single] at k
  simp only [Pi.smul_apply, Matrix.col_apply, MulOpposite.smul_eq_mul_unop, MulOpposite.unop_op, mul_one] at k
  calc S' x y = S' x y * (turnSign y * turnSign y) := by rw [turnSign_sq, mul_one]
    _ = _ := by rw [← mul_assoc, k]; ring

theorem tsystem_mirror (u : g → ℂ × ℂ) (e ei : Matrix g g ℂ) (c1 : ℂ) (f : (g ⊕ g) ⊕ (g ⊕ g) → ℂ) :
    tsystem u e ei c1 *ᵥ mirror f = -mirror (tsystem u e ei c1 *ᵥ f) := by
  have hw : (fun j => (u j).1 * -f (.inr (.inr j)) - (u j).2 * -f (.inr (.inl j))) =
      -fun j => (u j).1 * f (.inr (.inr j)) - (u j).2 * f (.inr (.inl j)) := by
    funext j; simp only [Pi.neg_apply]; ring
  funext x
  rcases x with (k | k) | (k | k)
  · rw [(tsystem_mulVec u e ei c1 (mirror f) k).1]
    have := (tsystem_mulVec u e ei c1 f k).1
    simp only [mirror, Pi.neg_apply, Sum.elim_inl, Sum.elim_inr, this, hw, mulVec_neg]
    ring
  · rw [(tsystem_mulVec u e ei c1 (mirror f) k).2.1]
    have := (tsystem_mulVec u e ei c1 f k).2.1
    simp only [mirror, Pi.neg_apply, Sum.elim_inl, Sum.elim_inr, this, hw, mulVec_neg]
    ring
  · rw [(tsystem_mulVec u e ei c1 (mirror f) k).2.2.1]
    have := (tsystem_mulVec u e ei c1 f k).2.2.1
    simp only [mirror, Pi.neg_apply, Sum.elim_inl, Sum.elim_inr, this, neg_neg]
  · rw [(tsystem_mulVec u e ei c1 (mirror f) k).2.2.2]
    have := (tsystem_mulVec u e ei c1 f k).2.2.2
    simp only [mirror, Pi.neg_apply, Sum.elim_inl, Sum.elim_inr, this, neg_neg]

/-- Fields seen from the other side obey the same equations. -/
theorem tmaxwell_mirror {u : g → ℂ × ℂ} {e ei : Matrix g g ℂ} {k0 : ℝ} (hk : k0 ≠ 0) {f : ℝ → (g ⊕ g) ⊕ (g ⊕ g) → ℂ}
    (h : TMaxwell u e ei k0 f) (D : ℝ) : TMaxwell u e ei k0 fun z => mirror (f (D - z)) := by
  rw [tmaxwell_iff hk] at h ⊢
  intro z i
  rw [tsystem_mirror]
  have hd : ∀ i, HasDerivAt (fun t => f (D - t) i) (-((tsystem u e ei k0 *ᵥ f (D - z)) i)) z := by
    intro i
    have h1 : HasDerivAt (fun t : ℝ => D - t) (-1) z := (hasDerivAt_id z).const_sub D
    have := (h (D - z) i).scomp z h1
    rw [neg_one_smul] at this
    exact this
  rcases i with i | i
  · exact hd (.inl i)
  · exact (hd (.inr i)).fun_neg

theorem relChain_reverse {α V : Type} {R R' : α → V → V → Prop} {φ : V → V} (h : ∀ x u v, R x u v → R' x (φ v) (φ u)) :
    ∀ {L : List α} {u w : V}, RelChain R L u w → RelChain R' L.reverse (φ w) (φ u)
  | [], _, _, e => congrArg φ (Eq.symm e)
  | x :: L, u, w, ⟨v, h1, h2⟩ => by
    rw [List.reverse_cons, relChain_append]
    exact ⟨φ v, relChain_reverse h h2, φ u, h x u v h1, rfl⟩

theorem relChain_forall₂ {α β V : Type} {P : α → β → Prop} {R : α → V → V → Prop} {R' : β → V → V → Prop}
    (h : ∀ x y, P x y → ∀ u v, R x u v → R' y u v) :
    ∀ {L : List α} {M : List β} {u w : V}, List.Forall₂ P L M → RelChain R L u w → RelChain R' M u w
  | _, _, _, _, .nil, e => e
  | _, _, _, _, .cons hp hl, ⟨v, h1, h2⟩ => ⟨v, h _ _ hp _ _ h1, relChain_forall₂ h hl h2⟩

/-- A product of S-matrices, from left to right, relates what a chain of them relates. -/
theorem foldlM_multS_chain {n : Type} [Fintype n] [DecidableEq n] : ∀ {t : List (Matrix (n ⊕ n) (n ⊕ n) ℂ)}
    {S0 S : Matrix (n ⊕ n) (n ⊕ n) ℂ}, t.foldlM multS S0 = .ok S → ∀ u w,
    (TScatters S u w ↔ RelChain TScatters (S0 :: t) u w)
  | [], S0, S, h, u, w => by
    cases h
    simp [RelChain]
  | X :: t, S0, S, h, u, w => by
    rw [List.foldlM_cons, bind_eq_ok] at h
    obtain ⟨Y, hY, h⟩ := h
    rw [foldlM_multS_chain h]
    simp only [RelChain, multS_chain hY]
    constructor
    · rintro ⟨v, ⟨v', h1, h2⟩, h3⟩; exact ⟨v', h1, v, h2, h3⟩
    · rintro ⟨v', h1, v, h2, h3⟩; exact ⟨v, ⟨v', h1, h2⟩, h3⟩

end

namespace TLattice
variable {jv1 : ℝ → ℝ} {pw : ℕ × ℕ} {a1 a2 : R2} {ei ee : PyNum} {l : TLattice} {wl a b : ℝ}

theorem make_turned (h : TLattice.make pw a1 a2 ei ee = .ok l) : TLattice.make pw a1 a2 ee ei = .ok l.turned := by
  unfold TLattice.make at h ⊢
  simp only [bind_eq_ok] at h ⊢
  obtain ⟨B, hB, q, hq, c, hc, h⟩ := h
  cases h
  exact ⟨B, hB, q, hq, c, hc, rfl⟩

theorem V_turn {eps : PyNum} {V : Matrix (TIdx l.shape) (TIdx l.shape) ℂ} (hV : l.V eps wl (↑a, ↑b) = .ok V)
    (p : TIdx l.shape → ℂ) : V *ᵥ faceTurn p = mirror (V *ᵥ p) := by
  obtain ⟨-, -, rfl⟩ := V_ok hV
  funext x
  rcases x with (k | k) | (k | k)
  · rw [(diagBlocks_mulVec _ _ k).1]
    simp only [mirror, Sum.elim_inl]
    rw [(diagBlocks_mulVec _ p k).1]
    simp [faceTurn, turnSign, vBlock]
    ring
  · rw [(diagBlocks_mulVec _ _ k).2.1]
    simp only [mirror, Sum.elim_inl]
    rw [(diagBlocks_mulVec _ p k).2.1]
    simp [faceTurn, turnSign, vBlock]
    ring
  · rw [(diagBlocks_mulVec _ _ k).2.2.1]
    simp only [mirror, Sum.elim_inr]
    rw [(diagBlocks_mulVec _ p k).2.2.1]
    simp [faceTurn, turnSign, vBlock]
    ring
  · rw [(diagBlocks_mulVec _ _ k).2.2.2]
    simp only [mirror, Sum.elim_inr]
    rw [(diagBlocks_mulVec _ p k).2.2.2]
    simp [faceTurn, turnSign, vBlock]
    ring

theorem fields_mirror (hw : wl ≠ 0) {s s' : TSheet} (hs : s.Same s') {kp : ℂ × ℂ} {F G : TIdx l.shape → ℂ}
    (h : s.Fields jv1 l wl kp F G) : s'.Fields jv1 l wl kp (mirror G) (mirror F) := by
  obtain ⟨f, hf, rfl, rfl⟩ := h
  obtain ⟨e1, e2, e3⟩ := hs
  refine ⟨_, by rw [e1, e2]; exact tmaxwell_mirror (div_ne_zero (by positivity) hw) hf s.depth, ?_, ?_⟩
  · simp
  · simp [e3]

theorem deviceOf_relates (h : TLattice.make pw a1 a2 ei ee = .ok l) (hp : pw.1 = pw.2 ∨ pw.2 = 1) (h0 : 0 < pw.1)
    {sheets : List TSheet} {S Vi Ve : Matrix (TIdx l.shape) (TIdx l.shape) ℂ}
    (hS : l.deviceOf jv1 wl (↑a, ↑b) sheets = .ok S) (hi : l.V l.epsI wl (↑a, ↑b) = .ok Vi)
    (he : l.V l.epsE wl (↑a, ↑b) = .ok Ve) (u w : TIdx l.shape → ℂ) :
    TScatters S u w ↔ RelChain (fun s => s.Fields jv1 l wl (↑a, ↑b)) sheets (Vi *ᵥ u) (Ve *ᵥ w) := by
  unfold deviceOf at hS
  simp only [bind_eq_ok, mapM_eq_ok] at hS
  obtain ⟨Ss, hSs, Si, hSi, hS⟩ := hS
  have hVU : ∃ U, Vi * U = 1 := by
    have := hSi
    simp only [tmatInterface, bind_eq_ok] at this
    obtain ⟨U, hU, -⟩ := this
    exact ⟨U, Vi_mul_U hU hi⟩
  obtain ⟨U, hVU⟩ := hVU
  have hx : ∀ x, Vi *ᵥ (U *ᵥ x) = x := fun x => by rw [mulVec_mulVec, hVU, one_mulVec]
  have hchain : TScatters S u w ↔ RelChain TScatters (Ss ++ [Si]) u w := by
    cases Ss with
    | nil =>
      cases hS
      simp [RelChain]
    | cons S0 t =>
      simp only [bind_eq_ok] at hS
      obtain ⟨S1, h1, hS⟩ := hS
      rw [multS_chain hS, relChain_append]
      simp only [foldlM_multS_chain h1]
      simp [RelChain]
  rw [hchain]
  clear hchain hS
  induction hSs generalizing u with
  | nil =>
    simp only [List.nil_append, RelChain, exists_eq_right]
    exact interface_relates hSi hi he u w
  | @cons s X ss Xs hX _ ih =>
    simp only [List.cons_append, RelChain]
    constructor
    · rintro ⟨v, h1, h2⟩
      exact ⟨Vi *ᵥ v, (C60_layer h hp h0 hX hi u v).1 h1, (ih v).1 h2⟩
    · rintro ⟨F, h1, h2⟩
      refine ⟨U *ᵥ F, (C60_layer h hp h0 hX hi u _).2 ?_, (ih _).2 ?_⟩
      · rw [hx]; exact h1
      · rw [hx]; exact h2

end TLattice

end Khepri
