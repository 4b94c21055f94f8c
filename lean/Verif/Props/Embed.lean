import Verif.Lemmas.EmbedTwisted
import Verif.Lemmas.ExampleTwoLayers

/-!
# Property C87: a device of one lattice, calculated in the joint space of two
-/

namespace Khepri

open Matrix

section
variable {M : ℕ} {lib : NumLib} {tag : ℕ} {lhs rhs : Expansion M} {se : SumExpansion M}
  {c c3 : Crystal M} {c' c3' : Crystal (M * M)} {stack stack' : List String}
  {m m' : Bool ⊕ List Bool} {Ls : List (Layer M)} {Ls' : List (TwistedLayer M)} {er et wl : ℝ} {te tm : ℂ}
  {theta phi theta' phi' : ℝ} {kpo kpo' : Option (ℂ × ℂ)} {kp : R2} {f : Crystal.Fluxes M}
  {f' : Crystal.Fluxes (M * M)}

/-- **C87.** A stack made of layers of the first of two lattices, and of uniform layers, gives in the joint space of the
two lattices the powers it gives in a plain crystal of that lattice: order `(r, i)` carries the power of order `r` when
`i` is the middle order of the other lattice, none otherwise. -/
theorem C87_first (he : ∀ n, EigContract (lib.eig n)) (hr : Built rhs) (hse : lhs.add tag rhs = .ok se)
    (hx : c.expansion = lhs) (h : DeviceRun lib c stack m Ls er et wl te tm theta phi kpo kp c3)
    (h' : TwistedRun lib se c' stack' m' Ls' er et wl te tm theta' phi' kpo' kp c3')
    (hL : List.Forall₂ TwistedLayer.AsFirst Ls Ls') (hwl : 0 < wl)
    (hf : c3.poyntingFluxEnd = .ok f) (hf' : c3'.poyntingFluxEnd = .ok f') :
    (∀ r i, f'.Rg (pairPos r i) = (if 2 * (i : ℕ) + 1 = M then f.Rg r else 0) ∧
      f'.Tg (pairPos r i) = if 2 * (i : ℕ) + 1 = M then f.Tg r else 0) ∧ f'.R = f.R ∧ f'.T = f.T := by
  obtain ⟨hodd, hmid⟩ := C25_specular_middle hr
  rw [Nat.odd_iff] at hodd
  obtain ⟨st, Ms, inc, -, hM, hi, -, ho⟩ := h.outcome (he M) hwl hf
  obtain ⟨st', Ms', inc', -, hM', hi', -, ho'⟩ := h'.outcome he hse hwl hf'
  rw [hx] at hM ho
  obtain ⟨h1, h2, h3⟩ := joint_fluxes hodd (joint_lhs hse) (fun i hi => hmid i (by omega)) hM hM'
    (hL.imp fun l l' hl => by
      cases l' with
      | uniform eps d =>
        refine ⟨hl.2, fun C C' hC hC' i j r c => ?_⟩
        rw [hl.1] at hC
        simp only [Permittivity] at hC
        simp only [TwistedLayer.Permittivity] at hC'
        rw [hC, hC']
        simp only [Matrix.smul_apply, Matrix.one_apply, jointPos_inj, smul_eq_mul]
        split_ifs <;> simp_all
      | first a =>
        refine ⟨hl.2, fun C C' hC hC' i j r c => ?_⟩
        obtain ⟨C1, hC1, hC2⟩ := hC'
        rw [hl.1] at hC1
        rw [permittivity_unique hC hC1]
        simpa [jointPos] using hC2 r c i j
      | second a =>
        obtain ⟨⟨eps, e1, e2⟩, e3⟩ := hl
        refine ⟨e3, fun C C' hC hC' i j r c => ?_⟩
        obtain ⟨C1, hC1, hC2⟩ := hC'
        rw [e1] at hC1
        rw [e2] at hC
        simp only [Permittivity] at hC hC1
        have := hC2 i j r c
        rw [hC1] at this
        simp only [jointPos, one_ne_zero, if_false]
        rw [this, hC]
        simp only [Matrix.smul_apply, Matrix.one_apply, smul_eq_mul]
        split_ifs <;> simp_all)
    hi hi' ho ho'
  refine ⟨fun r i => ?_, h2, h3⟩
  have := h1 i r
  simpa only [jointPos, one_ne_zero, if_false, show ((i : ℕ) = (M - 1) / 2) ↔ 2 * (i : ℕ) + 1 = M by omega] using this

/-- **C87.** The same for the layers of the second of the two lattices: order `(i, r)` carries the power of order `r`
when `i` is the middle order of the first lattice. -/
theorem C87_second (he : ∀ n, EigContract (lib.eig n)) (hl : Built lhs) (hse : lhs.add tag rhs = .ok se)
    (hx : c.expansion = rhs) (h : DeviceRun lib c stack m Ls er et wl te tm theta phi kpo kp c3)
    (h' : TwistedRun lib se c' stack' m' Ls' er et wl te tm theta' phi' kpo' kp c3')
    (hL : List.Forall₂ TwistedLayer.AsSecond Ls Ls') (hwl : 0 < wl)
    (hf : c3.poyntingFluxEnd = .ok f) (hf' : c3'.poyntingFluxEnd = .ok f') :
    (∀ r i, f'.Rg (pairPos i r) = (if 2 * (i : ℕ) + 1 = M then f.Rg r else 0) ∧
      f'.Tg (pairPos i r) = if 2 * (i : ℕ) + 1 = M then f.Tg r else 0) ∧ f'.R = f.R ∧ f'.T = f.T := by
  obtain ⟨hodd, hmid⟩ := C25_specular_middle hl
  rw [Nat.odd_iff] at hodd
  obtain ⟨st, Ms, inc, -, hM, hi, -, ho⟩ := h.outcome (he M) hwl hf
  obtain ⟨st', Ms', inc', -, hM', hi', -, ho'⟩ := h'.outcome he hse hwl hf'
  rw [hx] at hM ho
  obtain ⟨h1, h2, h3⟩ := joint_fluxes hodd (joint_rhs hse) (fun i hi => hmid i (by omega)) hM hM'
    (hL.imp fun l l' hl => by
      cases l' with
      | uniform eps d =>
        refine ⟨hl.2, fun C C' hC hC' i j r c => ?_⟩
        rw [hl.1] at hC
        simp only [Permittivity] at hC
        simp only [TwistedLayer.Permittivity] at hC'
        rw [hC, hC']
        simp only [Matrix.smul_apply, Matrix.one_apply, jointPos_inj, smul_eq_mul]
        split_ifs <;> simp_all
      | second a =>
        refine ⟨hl.2, fun C C' hC hC' i j r c => ?_⟩
        obtain ⟨C1, hC1, hC2⟩ := hC'
        rw [hl.1] at hC1
        rw [permittivity_unique hC hC1]
        simpa [jointPos] using hC2 r c i j
      | first a =>
        obtain ⟨⟨eps, e1, e2⟩, e3⟩ := hl
        refine ⟨e3, fun C C' hC hC' i j r c => ?_⟩
        obtain ⟨C1, hC1, hC2⟩ := hC'
        rw [e1] at hC1
        rw [e2] at hC
        simp only [Permittivity] at hC hC1
        have := hC2 i j r c
        rw [hC1] at this
        simp only [jointPos, if_true]
        rw [this, hC]
        simp only [Matrix.smul_apply, Matrix.one_apply, smul_eq_mul]
        split_ifs <;> simp_all)
    hi hi' ho ho'
  refine ⟨fun r i => ?_, h2, h3⟩
  have := h1 i r
  simpa only [jointPos, if_true, show ((i : ℕ) = (M - 1) / 2) ↔ 2 * (i : ℕ) + 1 = M by omega] using this

end

/-- Non-vacuity of C87: two layers on a 3×3 lattice, calculated with the 9 orders of the lattice, and with the 81 orders
of this lattice and of another one, of half the period. -/
example : ∃ (lib : NumLib) (lhs rhs : Expansion 9) (se : SumExpansion 9) (c c3 : Crystal 9) (c' c3' : Crystal (9 * 9))
    (Ls : List (Layer 9)) (Ls' : List (TwistedLayer 9)) (f : Crystal.Fluxes 9) (f' : Crystal.Fluxes (9 * 9)),
    (∀ n, EigContract (lib.eig n)) ∧ Built lhs ∧ Built rhs ∧ lhs.add 2 rhs = .ok se ∧ c.expansion = lhs ∧
    DeviceRun lib c ["a", "b"] (.inl true) Ls 1 1 4 1 0 0 0 none (0, 0) c3 ∧
    TwistedRun lib se c' ["a", "b"] (.inl true) Ls' 1 1 4 1 0 0 0 none (0, 0) c3' ∧
    List.Forall₂ TwistedLayer.AsFirst Ls Ls' ∧ Ls.length = 2 ∧
    c3.poyntingFluxEnd = .ok f ∧ c3'.poyntingFluxEnd = .ok f' ∧ f'.R = f.R ∧ f'.T = f.T := by
  obtain ⟨lhs, rhs, se, a, b, c', c1, c2, c3', f', hl, hr, hse, -, -, -, hc, h1, h2, ⟨src, hs, hk⟩, ho, h3, hf', hg⟩ :=
    twisted_run exampleLib
  obtain ⟨hodd, hmid⟩ := C25_specular_middle hr
  have hg' : ∀ i, 1 - orderKx lhs (0, 0) 4 i ^ 2 - orderKy lhs (0, 0) 4 i ^ 2 ≠ 0 := by
    intro i
    have := hg (jointPos 1 4 i)
    simpa only [orderKx, orderKy, joint_lhs hse 4 i, hmid 4 rfl, add_zero] using this
  obtain ⟨c3, f, hrun, hf⟩ := twoLayers_run exampleLib lhs (by norm_num) hg' 1 2
  have hrun' : TwistedRun exampleLib se c' ["a", "b"] (.inl true) _ 1 1 4 1 0 0 0 none (0, 0) c3' :=
    ⟨hc, c1, c2, _, src, h1, h2, ho, h3, hs, hk⟩
  have hL : List.Forall₂ TwistedLayer.AsFirst [Layer.uniform lhs 1 1, Layer.uniform lhs 1 2]
      [.first (Layer.uniform lhs 1 1), .second (Layer.uniform rhs 1 2)] :=
    .cons ⟨rfl, rfl⟩ (.cons ⟨⟨1, rfl, rfl⟩, rfl⟩ .nil)
  exact ⟨exampleLib, lhs, rhs, se, _, c3, c', c3', _, _, f, f', exampleLib_contract, hl, hr, hse, rfl, hrun, hrun', hL,
    rfl, hf, hf', (C87_first exampleLib_contract hr hse rfl hrun hrun' hL four_pos hf hf').2⟩

end Khepri
