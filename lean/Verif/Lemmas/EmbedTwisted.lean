import Verif.Lemmas.EmbedRuns

set_option linter.unusedSectionVars false

/-!
A device of one lattice inside the joint space of two lattices.
-/

namespace Khepri

open Matrix

variable {M : ℕ}

/-- The incident amplitudes with more orders. -/
theorem incident_embed {n N : ℕ} {te tm : ℂ} {k : C3} {inc : Vec2 n} {inc' : Vec2 N} (h : incident n te tm k = .ok inc)
    (h' : incident N te tm k = .ok inc') {f : Fin n → Fin N} (hf : Function.Injective f)
    (hmid : ∀ b : Fin n, ((f b : Fin N) : ℕ) = (N - 1) / 2 ↔ (b : ℕ) = (n - 1) / 2)
    (hoff : ∀ x : Fin N, (∀ b, x ≠ f b) → (x : ℕ) ≠ (N - 1) / 2) :
    inc' = (1 : ℂ) • (carryMat f (fun _ => 1) Turn.id *ᵥ inc) := by
  obtain ⟨-, -, aTE, aTM, hp, rfl⟩ := incident_eq_ok.1 h
  obtain ⟨-, -, aTE', aTM', hp', rfl⟩ := incident_eq_ok.1 h'
  rw [hp, Except.ok.injEq, Prod.mk.injEq] at hp'
  obtain ⟨rfl, rfl⟩ := hp'
  rw [one_smul]
  funext x
  rcases x with x | x
  · by_cases hx : ∃ b, x = f b
    · obtain ⟨b, rfl⟩ := hx
      rw [(carryMat_on hf _ b).1]
      simp [Turn.id, hmid]
    · have hx' : ∀ b, x ≠ f b := fun b hb => hx ⟨b, hb⟩
      rw [(carryMat_off hx' _).1]
      simp [hoff x hx']
  · by_cases hx : ∃ b, x = f b
    · obtain ⟨b, rfl⟩ := hx
      rw [(carryMat_on hf _ b).2]
      simp [Turn.id, hmid]
    · have hx' : ∀ b, x ≠ f b := fun b hb => hx ⟨b, hb⟩
      rw [(carryMat_off hx' _).2]
      simp [hoff x hx']

theorem pair_mid (hM : M % 2 = 1) (i j : Fin M) :
    (i : ℕ) * M + j = (M * M - 1) / 2 ↔ (i : ℕ) = (M - 1) / 2 ∧ (j : ℕ) = (M - 1) / 2 := by
  obtain ⟨m, rfl⟩ : ∃ m, M = 2 * m + 1 := ⟨M / 2, by omega⟩
  have hi := i.2
  have hj := j.2
  have e : ((2 * m + 1) * (2 * m + 1) - 1) / 2 = m * (2 * m + 1) + m := by
    have : (2 * m + 1) * (2 * m + 1) - 1 = 2 * (m * (2 * m + 1) + m) := by
      have : (2 * m + 1) * (2 * m + 1) = 2 * (m * (2 * m + 1) + m) + 1 := by ring
      omega
    rw [this]; omega
  rw [e, show (2 * m + 1 - 1) / 2 = m by omega]
  constructor
  · intro h
    have h1 : ((i : ℕ) * (2 * m + 1) + j) / (2 * m + 1) = (m * (2 * m + 1) + m) / (2 * m + 1) := by rw [h]
    rw [add_comm, Nat.add_mul_div_right _ _ (by omega), Nat.div_eq_of_lt hj, add_comm (m * _),
      Nat.add_mul_div_right _ _ (by omega), Nat.div_eq_of_lt (by omega)] at h1
    have h2 : (i : ℕ) = m := by omega
    rw [h2] at h
    exact ⟨h2, by omega⟩
  · rintro ⟨h1, h2⟩
    rw [h1, h2]

theorem jointPos_mid (hM : M % 2 = 1) (kind : ℕ) (i r : Fin M) :
    ((jointPos kind i r : Fin (M * M)) : ℕ) = (M * M - 1) / 2 ↔ (i : ℕ) = (M - 1) / 2 ∧ (r : ℕ) = (M - 1) / 2 := by
  unfold jointPos
  split
  · rw [pairPos_val, pair_mid hM]
  · rw [pairPos_val, pair_mid hM, and_comm]

/-- A layer matrix of the joint space acts on the orders at the middle of the other lattice as the plain one. -/
theorem spread_fit {kind : ℕ} {C1 : Matrix (Fin M) (Fin M) ℂ} {C : Matrix (Fin (M * M)) (Fin (M * M)) ℂ}
    (h : Spread kind C1 C) (i0 : Fin M) :
    C * embedMat (jointPos kind i0) (fun _ => 1) = embedMat (jointPos kind i0) (fun _ => 1) * C1 := by
  refine embed_fit (fun a b hab => (jointPos_inj.1 hab).2) (fun a b => ?_) fun x hx b => ?_
  · rw [h, if_pos rfl]; ring
  · obtain ⟨i, r, rfl⟩ := exists_jointPos kind x
    rw [h, if_neg]
    rintro rfl
    exact hx r rfl

/-- Fluxes of a stack of two lattices whose layers act as those of a plain crystal of one of them (`kind = 1`: the
first one, `kind = 0`: the second one). -/
theorem joint_fluxes {lib : NumLib} {kind : ℕ} {e : Expansion M} {gs : Fin M → R2} {E : Expansion (M * M)}
    (hM : M % 2 = 1) (hJ : Joint E e kind gs) (hg : ∀ i : Fin M, (i : ℕ) = (M - 1) / 2 → gs i = (0, 0))
    {kp : R2} {wl er et x0 : ℝ} {te tm : ℂ} {k : C3} {inc : Vec2 M} {inc' : Vec2 (M * M)}
    {Ls : List (Layer M)} {Ls' : List (TwistedLayer M)} {lhs rhs : Expansion M}
    {Ms : List (Mat2 M × Mat2 M × ℝ)} {Ms' : List (Mat2 (M * M) × Mat2 (M * M) × ℝ)} {S : SMat (Fin M ⊕ Fin M)}
    {S' : SMat (Fin (M * M) ⊕ Fin (M * M))} {F : Crystal.Fluxes M} {F' : Crystal.Fluxes (M * M)}
    (hE : LayerEquations lib.jv1 e (orderKx e kp wl) (orderKy e kp wl) (2 * Real.pi / wl) Ls Ms)
    (hE' : TwistedEquations lib.jv1 lhs rhs (orderKx E kp wl) (orderKy E kp wl) (2 * Real.pi / wl) Ls' Ms')
    (hL : List.Forall₂ (fun l l' => l'.depth = l.depth ∧ ∀ C C', Permittivity lib.jv1 e l.form C →
      l'.Permittivity lib.jv1 lhs rhs C' → Spread kind C C') Ls Ls')
    (hi : incident M te tm k = .ok inc) (hi' : incident (M * M) te tm k = .ok inc')
    (h : Outcome (orderKx e kp wl) (orderKy e kp wl) er et x0 Ms S inc F)
    (h' : Outcome (orderKx E kp wl) (orderKy E kp wl) er et x0 Ms' S' inc' F') :
    (∀ i r, F'.Rg (jointPos kind i r) = (if (i : ℕ) = (M - 1) / 2 then F.Rg r else 0) ∧
      F'.Tg (jointPos kind i r) = if (i : ℕ) = (M - 1) / 2 then F.Tg r else 0) ∧ F'.R = F.R ∧ F'.T = F.T := by
  let i0 : Fin M := ⟨(M - 1) / 2, by omega⟩
  have hinj : Function.Injective (jointPos kind i0) := fun a b hab => (jointPos_inj.1 hab).2
  have hk : ∀ b, (orderKx E kp wl (jointPos kind i0 b), orderKy E kp wl (jointPos kind i0 b)) =
      Turn.id.app (orderKx e kp wl b, orderKy e kp wl b) := by
    intro b
    rw [Turn.id_app]
    simp only [orderKx, orderKy, hJ i0 b, hg i0 rfl, add_zero]
  have hc := outcome_carry (f := jointPos kind i0) (d := fun _ => 1) (o := Turn.id) h h' hinj (by simp) hk (by
      unfold LayerEquations at hE
      unfold TwistedEquations at hE'
      clear h h'
      induction hL generalizing Ms Ms' with
      | nil => cases hE; cases hE'; exact .nil
      | cons h1 _ ih =>
        cases hE with
        | cons a b =>
          cases hE' with
          | cons a' b' =>
            obtain ⟨C, hC, hd, rfl⟩ := a
            obtain ⟨C', hC', hd', rfl⟩ := a'
            obtain ⟨e1, e2⟩ := carry_layer hk hd hd' (spread_fit (h1.2 C C' hC hC') i0)
            exact .cons ⟨e1, e2, by simp only; rw [h1.1]⟩ (ih b b'))
    (w := 1) (by simp) (incident_embed hi hi' hinj
      (fun b => by rw [jointPos_mid hM]; simp [i0])
      (fun x hx hxm => by
        obtain ⟨i, r, rfl⟩ := exists_jointPos kind x
        obtain ⟨h1, -⟩ := (jointPos_mid hM kind i r).1 hxm
        exact hx r (by rw [show i = i0 from Fin.ext h1])))
  obtain ⟨c1, c2, c3, c4⟩ := hc
  refine ⟨fun i r => ?_, c3, c4⟩
  by_cases hm : (i : ℕ) = (M - 1) / 2
  · rw [if_pos hm, if_pos hm, show i = i0 from Fin.ext hm]
    exact c1 r
  · rw [if_neg hm, if_neg hm]
    refine c2 _ fun b hb => hm ?_
    rw [(jointPos_inj.1 hb).1]

end Khepri
