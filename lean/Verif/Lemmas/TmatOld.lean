import Verif.Lemmas.TmatLayer

/-!
`matrix_a` and `matrix_a_old`.
-/

set_option linter.unusedSectionVars false
set_option linter.unusedSimpArgs false

namespace Khepri

open Matrix Complex

variable {s q : ℕ × ℕ}

/-- The order numbers of a place in arrays of shape `s`. -/
abbrev gridOrd (s : ℕ × ℕ) (k : ℕ) : ℤ × ℤ := coordsFromIndex s (s.1 / 2, s.2 / 2) k

/-- `indices` for arrays of shape `s`. -/
abbrev gridIndices (s : ℕ × ℕ) : List (ℤ × ℤ) := (List.range (s.1 * s.2)).map (gridOrd s)

theorem gridIndices_get (k : Fin (s.1 * s.2)) : pyGet (gridIndices s) k = .ok (gridOrd s k) := by
  refine pyGet_eq_ok.2 ?_
  simp [gridIndices, k.2]

/-- The two coefficients of a pair of orders. -/
noncomputable def readPair (s q : ℕ × ℕ) (epsG epsinvG : Fin q.1 → Fin q.2 → ℂ) (i j : ℕ) : Py (ℂ × ℂ) := do
  let i1 ← npIndex q.1 ((gridOrd s i).1 - (gridOrd s j).1 + 2 * (s.1 / 2 : ℕ))
  let i2 ← npIndex q.2 ((gridOrd s i).2 - (gridOrd s j).2 + 2 * (s.2 / 2 : ℕ))
  return (epsG i1 i2, epsinvG i1 i2)

theorem readTables_eq (epsG epsinvG : Fin q.1 → Fin q.2 → ℂ) : readTables s q (gridIndices s) epsG epsinvG =
    pyFinM fun i : Fin (s.1 * s.2) => pyFinM fun j : Fin (s.1 * s.2) => readPair s q epsG epsinvG i j := by
  unfold readTables readPair
  congr 1
  funext i
  congr 1
  funext j
  rw [gridIndices_get j, ok_bind, gridIndices_get i, ok_bind]

theorem readGrid_flatT {α : Type} (a : ℕ → ℕ → α) (k : Fin (s.1 * s.2)) :
    readGrid s a ((gridOrd s k).1 + (s.1 / 2 : ℕ)) ((gridOrd s k).2 + (s.2 / 2 : ℕ)) = .ok (flatT s a k) := by
  have h0 : 0 < s.1 := by
    rcases Nat.eq_zero_or_pos s.1 with h | h
    · exact absurd k.2 (by simp [h])
    · exact h
  have h1 := Nat.mod_lt (k : ℕ) h0
  have h2 : (k : ℕ) / s.1 < s.2 := Nat.div_lt_of_lt_mul k.2
  have e1 : (gridOrd s k).1 + (s.1 / 2 : ℕ) = ((k : ℕ) % s.1 : ℕ) := by simp [gridOrd, coordsFromIndex]
  have e2 : (gridOrd s k).2 + (s.2 / 2 : ℕ) = ((k : ℕ) / s.1 : ℕ) := by simp [gridOrd, coordsFromIndex]
  rw [readGrid, e1, e2, npIndex_ok h1, ok_bind, npIndex_ok h2, ok_bind]
  rfl

/-- The sixteen entries of a pair of orders. -/
noncomputable def oldEntry (s : ℕ × ℕ) (gx gy : ℕ → ℕ → ℝ) (wl : ℝ) (kp : ℂ × ℂ) (i j : Fin (s.1 * s.2)) (p : ℂ × ℂ) :
    Matrix (Fin 4) (Fin 4) ℂ :=
  let c1 : ℂ := (2 * Real.pi / wl : ℝ)
  let ieo : ℂ := I / mu0c * c1
  let iseo : ℂ := I * mu0c / c1
  let imo : ℂ := I * mu0c * c1
  let ismo : ℂ := I / mu0c / c1
  let uxj := kp.1 + flatT s gx j
  let uyj := kp.2 + flatT s gy j
  let uxi := kp.1 + flatT s gx i
  let uyi := kp.2 + flatT s gy i
  let d : ℂ → ℂ := fun x => if i = j then x else 0
  !![0, 0, iseo * uxi * p.2 * uyj, d imo - iseo * uxi * p.2 * uxj;
     0, 0, d (-imo) + iseo * uyi * p.2 * uyj, -iseo * uyi * p.2 * uxj;
     d (-ismo * uxi * uyj), d (ismo * uxi * uxj) - ieo * p.1, 0, 0;
     d (-ismo * uyi * uyj) + ieo * p.1, d (ismo * uyi * uxj), 0, 0]

theorem matrixAOldEntry_eq (gx gy : ℕ → ℕ → ℝ) (epsG epsinvG : Fin q.1 → Fin q.2 → ℂ) (wl : ℝ) (kp : ℂ × ℂ)
    (i j : Fin (s.1 * s.2)) : matrixAOldEntry s q (gridIndices s) gx gy epsG epsinvG wl kp i j =
      (readPair s q epsG epsinvG i j).map (oldEntry s gx gy wl kp i j) := by
  unfold matrixAOldEntry readPair
  simp only [gridIndices_get i, gridIndices_get j, readGrid_flatT, ok_bind]
  cases h1 : npIndex q.1 ((gridOrd s i).1 - (gridOrd s j).1 + 2 * (s.1 / 2 : ℕ)) with
  | error e => rfl
  | ok i1 =>
    simp only [ok_bind]
    cases h2 : npIndex q.2 ((gridOrd s i).2 - (gridOrd s j).2 + 2 * (s.2 / 2 : ℕ)) with
    | error e => rfl
    | ok i2 =>
      simp only [ok_bind]
      show Except.ok _ = Except.ok _
      simp only [oldEntry, Fin.ext_iff]

theorem readPair_error {epsG epsinvG : Fin q.1 → Fin q.2 → ℂ} {i j : ℕ} {e : PyErr}
    (h : readPair s q epsG epsinvG i j = .error e) : e = .index := by
  unfold readPair at h
  cases h1 : npIndex q.1 ((gridOrd s i).1 - (gridOrd s j).1 + 2 * (s.1 / 2 : ℕ)) with
  | error e' =>
    rw [h1] at h
    cases h
    exact (npIndex_error.1 h1).1
  | ok i1 =>
    rw [h1, ok_bind] at h
    cases h2 : npIndex q.2 ((gridOrd s i).2 - (gridOrd s j).2 + 2 * (s.2 / 2 : ℕ)) with
    | error e' =>
      rw [h2] at h
      cases h
      exact (npIndex_error.1 h2).1
    | ok i2 => rw [h2] at h; cases h

/-- Two nested loops that can only raise `IndexError`, whatever their order. -/
theorem pyFinM2_error {α : Type} {m n : ℕ} {F : Fin m → Fin n → Py α} (hF : ∀ i j e, F i j = .error e → e = .index)
    {i : Fin m} {j : Fin n} {e : PyErr} (h : F i j = .error e) : (pyFinM fun i => pyFinM fun j => F i j) = .error .index := by
  have inner : ∀ {i e}, pyFinM (F i) = .error e → e = .index := by
    intro i e he
    by_cases hx : ∃ j e, F i j = .error e
    · obtain ⟨j, e', h1, h2⟩ := pyFinM_error hx
      rw [he] at h2
      cases h2
      exact hF _ _ _ h1
    · push Not at hx
      have : ∀ j, ∃ a, F i j = .ok a := fun j => by
        cases h : F i j with
        | error e => exact absurd h (hx j e)
        | ok a => exact ⟨a, rfl⟩
      choose v hv using this
      rw [pyFinM_eq_ok.2 hv] at he
      cases he
  obtain ⟨j', e', -, h2⟩ := pyFinM_error (f := F i) ⟨j, e, h⟩
  obtain ⟨i', e'', h3, h4⟩ := pyFinM_error (f := fun i => pyFinM fun j => F i j) ⟨i, e', h2⟩
  rw [h4, inner h3]

theorem matrixA_eq_old (gx gy : ℕ → ℕ → ℝ) (epsG epsinvG : Fin q.1 → Fin q.2 → ℂ) (wl : ℝ) (kp : ℂ × ℂ) :
    matrixAOld s q (gridIndices s) gx gy epsG epsinvG wl kp = matrixA s q (gridIndices s) gx gy epsG epsinvG wl kp := by
  by_cases hw : wl = 0
  · subst hw
    rw [matrixAOld, matrixA, pyCheck_err (by simp)]
    rfl
  rw [matrixAOld, matrixA, pyCheck_ok hw, ok_bind, ok_bind]
  simp only [readTables_eq, matrixAOldEntry_eq]
  by_cases hx : ∃ i j : Fin (s.1 * s.2), ∃ e, readPair s q epsG epsinvG i j = .error e
  · obtain ⟨i, j, e, h⟩ := hx
    have r1 := pyFinM2_error (F := fun i j : Fin (s.1 * s.2) => readPair s q epsG epsinvG i j)
      (fun i j e h => readPair_error h) h
    have r2 := pyFinM2_error (F := fun j i : Fin (s.1 * s.2) =>
      (readPair s q epsG epsinvG i j).map (oldEntry s gx gy wl kp i j)) (i := j) (j := i) (e := e) (fun j i e h => by
        cases h' : readPair s q epsG epsinvG i j with
        | error e' => rw [h'] at h; cases h; exact readPair_error h'
        | ok v => rw [h'] at h; cases h) (by rw [h]; rfl)
    rw [r1, r2]
    rfl
  · push Not at hx
    have : ∀ i j : Fin (s.1 * s.2), ∃ a, readPair s q epsG epsinvG i j = .ok a := fun i j => by
      cases h : readPair s q epsG epsinvG i j with
      | error e => exact absurd h (hx i j e)
      | ok a => exact ⟨a, rfl⟩
    choose v hv using this
    have r1 : (pyFinM fun i : Fin (s.1 * s.2) => pyFinM fun j : Fin (s.1 * s.2) => readPair s q epsG epsinvG i j) = .ok v :=
      pyFinM_eq_ok.2 fun i => pyFinM_eq_ok.2 fun j => hv i j
    have r2 : (pyFinM fun j : Fin (s.1 * s.2) => pyFinM fun i : Fin (s.1 * s.2) =>
        (readPair s q epsG epsinvG i j).map (oldEntry s gx gy wl kp i j)) = .ok fun j i => oldEntry s gx gy wl kp i j (v i j) :=
      pyFinM_eq_ok.2 fun j => pyFinM_eq_ok.2 fun i => by rw [hv i j]; rfl
    rw [r1, r2, ok_bind, ok_bind]
    show Except.ok _ = Except.ok _
    congr 1
    ext r c
    rcases r with (i | i) | (i | i) <;> rcases c with (j | j) | (j | j)
    all_goals simp only [of_apply, TIdx.split, oldEntry, fromBlocks_apply₁₁, fromBlocks_apply₁₂, fromBlocks_apply₂₁,
      fromBlocks_apply₂₂, Matrix.zero_apply, Matrix.add_apply, Matrix.sub_apply, Matrix.neg_apply, Matrix.smul_apply, smul_eq_mul, diagonal_apply,
      cons_val', cons_val_zero, cons_val_one, cons_val, cons_val_fin_one]
    all_goals by_cases h : i = j
    all_goals try simp only [h, if_true, if_false]
    all_goals ring

end Khepri
