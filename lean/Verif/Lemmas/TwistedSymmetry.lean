import Verif.Lemmas.Moved
import Verif.Lemmas.Mirror

set_option linter.unusedSectionVars false

/-!
Two stacks of layers of two lattices, one of which has, turned, the orders of the other.
-/

namespace Khepri

open Matrix

section
variable {M : ℕ}

/-- The fluxes of a stack whose orders are, turned, those of another stack. -/
theorem twisted_carry {lib : NumLib} {tag tag' : ℕ} {lhs rhs lhs' rhs' : Expansion M} {se se' : SumExpansion M}
    {c c3 c' c3' : Crystal (M * M)} {stack stack' : List String} {m m' : Bool ⊕ List Bool}
    {Ls Ls' : List (TwistedLayer M)} {er et wl wl' : ℝ} {te tm te' tm' : ℂ} {theta phi theta' phi' : ℝ}
    {kpo kpo' : Option (ℂ × ℂ)} {kp kp' : R2} (he : ∀ n, EigContract (lib.eig n)) (hse : lhs.add tag rhs = .ok se)
    (hse' : lhs'.add tag' rhs' = .ok se') (h : TwistedRun lib se c stack m Ls er et wl te tm theta phi kpo kp c3)
    (h' : TwistedRun lib se' c' stack' m' Ls' er et wl' te' tm' theta' phi' kpo' kp' c3') (hwl : 0 < wl) (hwl' : 0 < wl')
    {F F' : Crystal.Fluxes (M * M)} (hF : c3.poyntingFluxEnd = .ok F) (hF' : c3'.poyntingFluxEnd = .ok F')
    {f : Fin (M * M) → Fin (M * M)} {d : Fin (M * M) → ℂ} {o : Turn} (hf : Function.Injective f) (hd : ∀ b, ‖d b‖ = 1)
    (hk : ∀ b, (orderKx se'.exp kp' wl' (f b), orderKy se'.exp kp' wl' (f b)) =
      o.app (orderKx se.exp kp wl b, orderKy se.exp kp wl b))
    (hx : (kp'.1 / (2 * Real.pi / wl')) ^ 2 + (kp'.2 / (2 * Real.pi / wl')) ^ 2 =
      (kp.1 / (2 * Real.pi / wl)) ^ 2 + (kp.2 / (2 * Real.pi / wl)) ^ 2)
    (hL : List.Forall₂ (fun l l' => l'.depth * (2 * Real.pi / wl') = l.depth * (2 * Real.pi / wl) ∧
      ∀ C C', l.Permittivity lib.jv1 lhs rhs C → l'.Permittivity lib.jv1 lhs' rhs' C' →
        C' * embedMat f d = embedMat f d * C) Ls Ls')
    (hinc : ∀ inc inc', 0 < er - (kp.1 / (2 * Real.pi / wl)) ^ 2 - (kp.2 / (2 * Real.pi / wl)) ^ 2 →
      incident (M * M) te tm ⟨kp.1, kp.2, star (csqrt (((2 * Real.pi / wl : ℝ) : ℂ) ^ 2 * er - (kp.1 : ℂ) ^ 2 - (kp.2 : ℂ) ^ 2))⟩ = .ok inc →
      incident (M * M) te' tm' ⟨kp'.1, kp'.2, star (csqrt (((2 * Real.pi / wl' : ℝ) : ℂ) ^ 2 * er - (kp'.1 : ℂ) ^ 2 - (kp'.2 : ℂ) ^ 2))⟩ = .ok inc' →
      ∃ w : ℂ, ‖w‖ = 1 ∧ inc' = w • (carryMat f d o *ᵥ inc)) :
    (∀ b, F'.Rg (f b) = F.Rg b ∧ F'.Tg (f b) = F.Tg b) ∧ F'.R = F.R ∧ F'.T = F.T := by
  obtain ⟨st, Ms, inc, -, hM, hi, hpos, ho⟩ := h.outcome he hse hwl hF
  obtain ⟨st', Ms', inc', -, hM', hi', -, ho'⟩ := h'.outcome he hse' hwl' hF'
  obtain ⟨w, hw, hinc⟩ := hinc inc inc' hpos hi hi'
  have hx' : er - (kp'.1 / (2 * Real.pi / wl')) ^ 2 - (kp'.2 / (2 * Real.pi / wl')) ^ 2 =
      er - (kp.1 / (2 * Real.pi / wl)) ^ 2 - (kp.2 / (2 * Real.pi / wl)) ^ 2 := by linarith
  rw [hx'] at ho'
  have key := outcome_carry ho ho' hf hd hk ?_ hw hinc
  · exact ⟨key.1, key.2.2⟩
  unfold TwistedEquations at hM hM'
  clear ho ho' h h'
  induction hL generalizing Ms Ms' with
  | nil => cases hM; cases hM'; exact .nil
  | cons h1 _ ih =>
    cases hM with
    | cons a b =>
      cases hM' with
      | cons a' b' =>
        obtain ⟨C, hC, hdt, rfl⟩ := a
        obtain ⟨C', hC', hdt', rfl⟩ := a'
        obtain ⟨e1, e2⟩ := carry_layer hk hdt hdt' (h1.2 C C' hC hC')
        exact .cons ⟨e1, e2, h1.1⟩ (ih _ b _ b')

/-- The order `(f1 r, f2 i)` for the order `(r, i)`. -/
def pairMap (f1 f2 : Fin M → Fin M) (x : Fin (M * M)) : Fin (M * M) :=
  pairPos (f1 (finProdFinEquiv.symm x).1) (f2 (finProdFinEquiv.symm x).2)

/-- The phase of order `(r, i)`. -/
def pairPhase (d1 d2 : Fin M → ℂ) (x : Fin (M * M)) : ℂ :=
  d1 (finProdFinEquiv.symm x).1 * d2 (finProdFinEquiv.symm x).2

/-- The order `(i, r)` for the order `(r, i)`. -/
def pairSwap (x : Fin (M * M)) : Fin (M * M) :=
  pairPos (finProdFinEquiv.symm x).2 (finProdFinEquiv.symm x).1

theorem pairMap_pos (f1 f2 : Fin M → Fin M) (r i : Fin M) : pairMap f1 f2 (pairPos r i) = pairPos (f1 r) (f2 i) := by
  simp [pairMap, pairPos]

theorem pairPhase_pos (d1 d2 : Fin M → ℂ) (r i : Fin M) : pairPhase d1 d2 (pairPos r i) = d1 r * d2 i := by
  simp [pairPhase, pairPos]

theorem pairSwap_pos (r i : Fin M) : pairSwap (pairPos r i) = pairPos i r := by
  simp [pairSwap, pairPos]

theorem exists_pairPos (x : Fin (M * M)) : ∃ r i, x = pairPos r i := by
  obtain ⟨⟨r, i⟩, rfl⟩ := finProdFinEquiv.surjective x
  exact ⟨r, i, rfl⟩

theorem pairPos_inj {r i c j : Fin M} : pairPos r i = pairPos c j ↔ r = c ∧ i = j := by
  simp [pairPos]

theorem pairMap_inj {f1 f2 : Fin M → Fin M} (h1 : Function.Injective f1) (h2 : Function.Injective f2) :
    Function.Injective (pairMap f1 f2) := by
  intro x y h
  obtain ⟨r, i, rfl⟩ := exists_pairPos x
  obtain ⟨c, j, rfl⟩ := exists_pairPos y
  rw [pairMap_pos, pairMap_pos, pairPos_inj] at h
  rw [h1 h.1, h2 h.2]

theorem pairSwap_inj : Function.Injective (pairSwap (M := M)) := by
  intro x y h
  obtain ⟨r, i, rfl⟩ := exists_pairPos x
  obtain ⟨c, j, rfl⟩ := exists_pairPos y
  rw [pairSwap_pos, pairSwap_pos, pairPos_inj] at h
  rw [h.1, h.2]

theorem pairMap_id : pairMap (M := M) id id = id := by
  funext x
  obtain ⟨r, i, rfl⟩ := exists_pairPos x
  rw [pairMap_pos]; rfl

theorem pairPhase_norm {d1 d2 : Fin M → ℂ} (h1 : ∀ r, ‖d1 r‖ = 1) (h2 : ∀ r, ‖d2 r‖ = 1) (x : Fin (M * M)) :
    ‖pairPhase d1 d2 x‖ = 1 := by
  rw [pairPhase, norm_mul, h1, h2, one_mul]

theorem add_g {tag : ℕ} {l r : Expansion M} {se : SumExpansion M} (h : l.add tag r = .ok se) (i j : Fin M) :
    se.exp.g (pairPos i j) = ((l.g i).1 + (r.g j).1, (l.g i).2 + (r.g j).2) := by
  rw [pairPos_eq]; exact (add_eq_ok h).2.2.2.2.2 i j

/-- The permittivity of a layer of the joint space, carried along with that of its lattice. -/
theorem twisted_fit {jv1 : ℝ → ℝ} {lhs rhs lhs' rhs' : Expansion M} {f1 f2 : Fin M → Fin M} {d1 d2 : Fin M → ℂ}
    (h1 : Function.Bijective f1) (h2 : Function.Bijective f2) {A B : Form → Form → Prop}
    (hA : ∀ f f' C C', A f f' → Permittivity jv1 lhs f C → Permittivity jv1 lhs' f' C' → ∀ r c, C' (f1 r) (f1 c) * d1 c = d1 r * C r c)
    (hB : ∀ f f' C C', B f f' → Permittivity jv1 rhs f C → Permittivity jv1 rhs' f' C' → ∀ r c, C' (f2 r) (f2 c) * d2 c = d2 r * C r c)
    {l l' : TwistedLayer M} (hl : l.Corresponds A B l') {C C' : Matrix (Fin (M * M)) (Fin (M * M)) ℂ}
    (hC : l.Permittivity jv1 lhs rhs C) (hC' : l'.Permittivity jv1 lhs' rhs' C') :
    C' * embedMat (pairMap f1 f2) (pairPhase d1 d2) = embedMat (pairMap f1 f2) (pairPhase d1 d2) * C := by
  refine embed_fit (pairMap_inj h1.1 h2.1) (fun x y => ?_) fun x hx => ?_
  · obtain ⟨r, i, rfl⟩ := exists_pairPos x
    obtain ⟨c, j, rfl⟩ := exists_pairPos y
    simp only [pairMap_pos, pairPhase_pos]
    cases l with
    | uniform eps d =>
      cases l' with
      | uniform eps' d' =>
        obtain rfl := hl
        simp only [TwistedLayer.Permittivity] at hC hC'
        rw [hC, hC']
        simp only [Matrix.smul_apply, Matrix.one_apply, pairPos_inj, h1.1.eq_iff, h2.1.eq_iff, smul_eq_mul]
        split_ifs with h
        · rw [h.1, h.2]; ring
        · simp
      | first => exact hl.elim
      | second => exact hl.elim
    | first a =>
      cases l' with
      | uniform => exact hl.elim
      | second => exact hl.elim
      | first a' =>
        obtain ⟨C1, hC1, hC⟩ := hC
        obtain ⟨C1', hC1', hC'⟩ := hC'
        rw [hC, hC']
        simp only [h2.1.eq_iff]
        split_ifs with h
        · rw [h]; linear_combination d2 j * hA _ _ _ _ hl hC1 hC1' r c
        · simp
    | second a =>
      cases l' with
      | uniform => exact hl.elim
      | first => exact hl.elim
      | second a' =>
        obtain ⟨C1, hC1, hC⟩ := hC
        obtain ⟨C1', hC1', hC'⟩ := hC'
        rw [hC, hC']
        simp only [h1.1.eq_iff]
        split_ifs with h
        · rw [h]; linear_combination d1 c * hB _ _ _ _ hl hC1 hC1' i j
        · simp
  · obtain ⟨r, i, rfl⟩ := exists_pairPos x
    obtain ⟨r, rfl⟩ := h1.2 r
    obtain ⟨i, rfl⟩ := h2.2 i
    exact absurd (pairMap_pos f1 f2 r i).symm (hx _)

/-- The permittivity of a layer when the lattices are listed in the other order. -/
theorem swapped_fit {jv1 : ℝ → ℝ} {lhs rhs : Expansion M} {l : TwistedLayer M}
    {C C' : Matrix (Fin (M * M)) (Fin (M * M)) ℂ} (hC : l.Permittivity jv1 lhs rhs C)
    (hC' : l.swap.Permittivity jv1 rhs lhs C') :
    C' * embedMat pairSwap (fun _ => 1) = embedMat pairSwap (fun _ => 1) * C := by
  refine embed_fit pairSwap_inj (fun x y => ?_) fun x hx => ?_
  · obtain ⟨r, i, rfl⟩ := exists_pairPos x
    obtain ⟨c, j, rfl⟩ := exists_pairPos y
    rw [pairSwap_pos, pairSwap_pos, mul_one, one_mul]
    cases l with
    | uniform eps d =>
      simp only [TwistedLayer.swap, TwistedLayer.Permittivity] at hC hC'
      rw [hC, hC']
      simp only [Matrix.smul_apply, Matrix.one_apply, pairPos_inj, and_comm]
    | first a =>
      obtain ⟨C1, hC1, hC⟩ := hC
      obtain ⟨C1', hC1', hC'⟩ := hC'
      rw [hC, hC', permittivity_unique hC1 hC1']
    | second a =>
      obtain ⟨C1, hC1, hC⟩ := hC
      obtain ⟨C1', hC1', hC'⟩ := hC'
      rw [hC, hC', permittivity_unique hC1 hC1']
  · obtain ⟨r, i, rfl⟩ := exists_pairPos x
    exact absurd (pairSwap_pos i r).symm (hx _)

/-- The order in the middle of the joint space. -/
theorem pairPos_mid (hM : M % 2 = 1) (r i : Fin M) :
    ((pairPos r i : Fin (M * M)) : ℕ) = (M * M - 1) / 2 ↔ (r : ℕ) = (M - 1) / 2 ∧ (i : ℕ) = (M - 1) / 2 := by
  rw [pairPos_val, pair_mid hM]

/-- The phases of a displacement. -/
theorem displaced_fit {jv1 : ℝ → ℝ} {e : Expansion M} (h1 : e.pw.1 % 2 = 1) (h2 : e.pw.2 % 2 = 1) {D : Displacement}
    (hD : D.Fits e) : ∃ d : Fin M → ℂ, (∀ r, ‖d r‖ = 1) ∧ ∀ f f' C C', f.Displaced D f' →
      Permittivity jv1 e f C → Permittivity jv1 e f' C' → ∀ r c, C' r c * d c = d r * C r c := by
  cases D with
  | fractions t =>
    exact ⟨fun r => shiftPhase e.pw.1 t r, fun r => shiftPhase_norm _ _ _, fun f f' C C' hf h h' r c =>
      permittivity_shift hf h h' r c⟩
  | vector v =>
    obtain ⟨τ, hτ⟩ := reads_differences h1 h2 hD.2
    exact ⟨fun r => movePhase e.reciprocal τ v r, fun r => movePhase_norm _ _ _ _, fun f f' C C' hf h h' r c =>
      permittivity_move hτ hD.1 ⟨by omega, by omega⟩ hf h h' r c⟩

end

theorem fluxes_ext {n : ℕ} {f f' : Crystal.Fluxes n} (h : ∀ b, f'.Rg b = f.Rg b ∧ f'.Tg b = f.Tg b) (hR : f'.R = f.R)
    (hT : f'.T = f.T) : f' = f := by
  obtain ⟨R, T, Rg, Tg⟩ := f
  obtain ⟨R', T', Rg', Tg'⟩ := f'
  simp only at h hR hT
  rw [Crystal.Fluxes.mk.injEq]
  exact ⟨hR, hT, funext fun b => (h b).1, funext fun b => (h b).2⟩

section
variable {P Q : ℕ}

theorem flipOrder_bij (p q : Bool) : Function.Bijective (flipOrder P Q p q) :=
  (Finite.injective_iff_bijective).1 (flipOrder_inj p q)

/-- A flipped layer, entry by entry. -/
theorem flipped_entries {jv1 : ℝ → ℝ} {e e' : Expansion (P * Q)} (he : e.pw = (P, Q)) (he' : e'.pw = (P, Q))
    {p q : Bool} {K L : ℕ} {f f' : Form} (hf : f.Flipped p q K L f') {C C' : Matrix (Fin (P * Q)) (Fin (P * Q)) ℂ}
    (h : Permittivity jv1 e f C) (h' : Permittivity jv1 e' f' C') (r c : Fin (P * Q)) :
    C' (flipOrder P Q p q r) (flipOrder P Q p q c) * flipPhases P Q p q K L c = flipPhases P Q p q K L r * C r c := by
  have := congrFun (congrFun (flipped_fit he he' hf h h') (flipOrder P Q p q r)) c
  simpa [Matrix.mul_apply, embedMat, (flipOrder_inj p q).eq_iff] using this

end

end Khepri
