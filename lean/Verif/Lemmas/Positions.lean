import Verif.Spec.Profile
import Verif.Lemmas.CrystalView

set_option linter.unusedSectionVars false

/-!
`stack_positions`, `zmax`, `depth` and the bisection of `locate_layer`.
-/

namespace Khepri

theorem startOf_zero (ds : List ℝ) : startOf ds 0 = 0 := by simp [startOf]

theorem startOf_succ {ds : List ℝ} {j : ℕ} (h : j < ds.length) : startOf ds (j + 1) = startOf ds j + ds[j] := by
  simp only [startOf, List.take_add_one, List.sum_append, List.getElem?_eq_getElem h]
  simp

theorem startOf_mono {ds : List ℝ} (h : ∀ d ∈ ds, 0 ≤ d) : Monotone (startOf ds) := by
  refine monotone_nat_of_le_succ fun j => ?_
  by_cases hj : j < ds.length
  · rw [startOf_succ hj]; linarith [h _ (List.getElem_mem hj)]
  · simp only [startOf]
    rw [List.take_of_length_le (by omega), List.take_of_length_le (by omega)]

theorem startOf_length (ds : List ℝ) : startOf ds ds.length = ds.sum := by simp [startOf]

namespace Crystal

theorem cumsum_eq : ∀ (ds : List ℝ) (a : ℝ),
    cumsum a ds = (List.range ds.length).map fun j => a + startOf ds (j + 1)
  | [], a => by simp [cumsum]
  | d :: ds, a => by
    rw [cumsum, cumsum_eq ds, List.length_cons, List.range_succ_eq_map, List.map_cons, List.map_map]
    simp only [startOf, List.take_succ_cons, List.take_zero, List.sum_cons, List.sum_nil, add_zero,
      Function.comp_def, Nat.succ_eq_add_one, add_assoc]

/-- The positions of a device between two outer media. -/
noncomputable def devicePositions (ds : List ℝ) : List EReal :=
  ⊥ :: ((List.range (ds.length + 1)).map (fun j => (startOf ds j : EReal)) ++ [⊤])

theorem positions_device (ds : List ℝ) :
    positions false (0 :: (ds ++ [0])) = .ok (devicePositions ds) := by
  unfold positions
  have h : ((cumsum 0 (0 :: (ds ++ [0]))).map fun x : ℝ => (x : EReal)).dropLast =
      (List.range (ds.length + 1)).map (fun j => (startOf ds j : EReal)) := by
    rw [cumsum_eq]
    simp only [List.length_cons, List.length_append, List.length_nil, zero_add, List.map_map]
    rw [List.range_succ, List.map_append, List.map_cons, List.map_nil, List.dropLast_concat]
    refine List.map_congr_left fun j hj => ?_
    have hj' : j ≤ ds.length := by simpa [Nat.lt_succ_iff] using hj
    simp only [Function.comp_def, startOf, List.take_succ_cons, List.sum_cons, zero_add]
    rw [List.take_append_of_le_length hj']
  simp only
  rw [pyCheck_ok (by simp [cumsum]), ok_bind, h]
  rfl

theorem devicePositions_length (ds : List ℝ) : (devicePositions ds).length = ds.length + 3 := by
  simp [devicePositions]

theorem devicePositions_zero (ds : List ℝ) : (devicePositions ds)[0]? = some ⊥ := rfl

theorem devicePositions_mid {ds : List ℝ} {j : ℕ} (h : j ≤ ds.length) :
    (devicePositions ds)[j + 1]? = some (startOf ds j : EReal) := by
  simp only [devicePositions, List.getElem?_cons_succ]
  rw [List.getElem?_append_left (by simpa using Nat.lt_succ_of_le h)]
  simp [Nat.lt_succ_of_le h]

theorem devicePositions_last (ds : List ℝ) : (devicePositions ds)[ds.length + 2]? = some ⊤ := by
  simp only [devicePositions, List.getElem?_cons_succ]
  rw [List.getElem?_append_right (by simp)]
  simp

/-- What numpy's bisection returns on a sorted list. -/
theorem searchsorted_spec {a : List EReal} {z : EReal} {r : ℕ} (hr : r ≤ a.length)
    (h1 : ∀ j, j < r → a.getD j ⊤ < z) (h2 : ∀ j, r ≤ j → j < a.length → z ≤ a.getD j ⊤) :
    searchsorted a z 0 a.length = r := by
  have key : ∀ n lo hi, hi - lo = n → lo ≤ r → r ≤ hi → hi ≤ a.length → searchsorted a z lo hi = r := by
    intro n
    induction n using Nat.strong_induction_on with
    | _ n ih =>
      intro lo hi hn hlo hhi hla
      rw [searchsorted]
      simp only
      split_ifs with h h'
      · refine ih _ ?_ (lo + (hi - lo) / 2 + 1) hi rfl ?_ hhi hla
        · omega
        · by_contra hc
          have := h2 (lo + (hi - lo) / 2) (by omega) (by omega)
          exact absurd h' (not_lt.2 this)
      · refine ih _ ?_ lo (lo + (hi - lo) / 2) rfl hlo ?_ (by omega)
        · omega
        · by_contra hc
          exact h' (h1 _ (by omega))
      · omega
  exact key _ 0 a.length rfl (Nat.zero_le _) hr le_rfl

/-- `locate_layer` on a device between two outer media. -/
theorem locateLayer_device {N : ℕ} {r : Crystal N} {ds : List ℝ} {names : List String} {z : ℝ} {j : ℕ}
    {x : String} {l : AnyLayer N} (hpos : r.stackPositions = devicePositions ds)
    (hn : r.globalStacking = some names) (hd : ∀ d ∈ ds, 0 ≤ d) (hj : j ≤ ds.length + 1)
    (hlo : ∀ i, i < j → startOf ds i < z) (hhi : j ≤ ds.length → z ≤ startOf ds j)
    (hx : names[j]? = some x) (hl : r.layers x = some l) :
    r.locateLayer z = .ok (l, (j : ℤ), ((if j = 0 then z else z - startOf ds (j - 1) : ℝ) : EReal)) := by
  have hlen := devicePositions_length ds
  have hmono := startOf_mono hd
  have hs : searchsorted (devicePositions ds) z 0 (devicePositions ds).length = j + 1 := by
    refine searchsorted_spec (by omega) ?_ ?_
    · intro i hi
      cases i with
      | zero => rw [List.getD_eq_getElem?_getD, devicePositions_zero]; exact EReal.bot_lt_coe z
      | succ i =>
        rw [List.getD_eq_getElem?_getD, devicePositions_mid (by omega)]
        exact EReal.coe_lt_coe_iff.2 (hlo i (by omega))
    · intro i hi hi'
      obtain ⟨i, rfl⟩ : ∃ i', i = i' + 1 := ⟨i - 1, by omega⟩
      by_cases h : i ≤ ds.length
      · rw [List.getD_eq_getElem?_getD, devicePositions_mid h]
        exact EReal.coe_le_coe_iff.2 ((hhi (by omega)).trans (hmono (by omega)))
      · have : i = ds.length + 1 := by omega
        rw [List.getD_eq_getElem?_getD, this, devicePositions_last]
        exact le_top
  have get : ∀ {α : Type} {a : List α} {k : ℕ} {v : α}, a[k]? = some v → pyGetZ a (k : ℤ) = .ok v := by
    intro α a k v h
    obtain ⟨h', rfl⟩ := List.getElem?_eq_some_iff.1 h
    exact pyGetZ_nat h'
  unfold locateLayer
  rw [hpos, hs]
  have e1 : (((j + 1 : ℕ) : ℤ) - 1) = (j : ℤ) := by push_cast; ring
  have e2 : ((j : ℤ) + 1) = ((j + 1 : ℕ) : ℤ) := by push_cast; ring
  simp only [e1]
  rw [e2]
  have hz : (z ≤ 0) ↔ j = 0 := by
    constructor
    · intro h
      by_contra hj0
      have := hlo 0 (by omega)
      rw [startOf_zero] at this
      linarith
    · rintro rfl
      have := hhi (by omega)
      rwa [startOf_zero] at this
  obtain ⟨lo, hlo', hlo''⟩ : ∃ lo, (devicePositions ds)[j]? = some lo ∧
      (if z ≤ 0 then (z : EReal) else (z : EReal) - lo) =
        ((if j = 0 then z else z - startOf ds (j - 1) : ℝ) : EReal) := by
    cases j with
    | zero => exact ⟨⊥, rfl, by simp [hz]⟩
    | succ j =>
      refine ⟨_, devicePositions_mid (by omega), ?_⟩
      rw [if_neg (by simp [hz]), if_neg (by omega)]
      simp
  obtain ⟨hi2, hhi2⟩ : ∃ v, (devicePositions ds)[j + 1]? = some v := by
    have : j + 1 < (devicePositions ds).length := by omega
    exact ⟨_, List.getElem?_eq_getElem this⟩
  rw [hn]
  simp only [attr, get hx, get hlo', get hhi2, ok_bind, layer_eq_ok.2 hl, hlo'']
  rfl

/-- Every positive depth inside the device is in exactly one half-open interval. -/
theorem exists_interval {ds : List ℝ} (hd : ∀ d ∈ ds, 0 ≤ d) {z : ℝ} (h0 : 0 < z) (h1 : z ≤ ds.sum) :
    ∃! i, i < ds.length ∧ startOf ds i < z ∧ z ≤ startOf ds (i + 1) := by
  have hmono := startOf_mono hd
  have hex : ∃ i, z ≤ startOf ds i := ⟨ds.length, by rwa [startOf_length]⟩
  classical
  have hm := Nat.find_spec hex
  have hne : Nat.find hex ≠ 0 := by
    intro h
    rw [h, startOf_zero] at hm
    linarith
  obtain ⟨i, hi⟩ := Nat.exists_eq_succ_of_ne_zero hne
  have hlt : startOf ds i < z := by
    have := Nat.find_min hex (m := i) (by omega)
    exact lt_of_not_ge this
  have hle : Nat.find hex ≤ ds.length := Nat.find_le (by rwa [startOf_length])
  rw [hi] at hm
  refine ⟨i, ⟨by omega, hlt, hm⟩, ?_⟩
  rintro k ⟨-, h2, h3⟩
  by_contra hne'
  rcases Nat.lt_or_gt_of_ne hne' with h | h
  · have := hmono (show k + 1 ≤ i by omega)
    linarith
  · have := hmono (show i + 1 ≤ k by omega)
    linarith

end Crystal

end Khepri
