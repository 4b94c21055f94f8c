import Verif.Lemmas.FieldsDevice
import Mathlib.Analysis.SpecialFunctions.Exponential

set_option linter.unusedSectionVars false

/-!
Field profiles: existence, uniqueness, continuity.
-/

namespace Khepri

open Matrix

section
variable {n : Type} [Fintype n] [DecidableEq n]

/-- The field after optical thickness `t` in a medium. -/
noncomputable def mtrans (P Q : Matrix n n ℂ) (t : ℝ) (F : Tang n) : Tang n :=
  let v := NormedSpace.exp ((t : ℂ) • fromBlocks 0 P Q 0) *ᵥ Sum.elim F.E F.H
  ⟨fun i => v (.inl i), fun i => v (.inr i)⟩

theorem maxwellTransfer_iff {P Q : Matrix n n ℂ} {t : ℝ} {F G : Tang n} :
    MaxwellTransfer P Q t F G ↔ G = mtrans P Q t F := by
  unfold MaxwellTransfer mtrans
  constructor
  · intro h
    rw [← h]
    rfl
  · rintro rfl
    funext i
    cases i <;> rfl

theorem mtrans_zero (P Q : Matrix n n ℂ) (F : Tang n) : mtrans P Q 0 F = F := by
  symm
  rw [← maxwellTransfer_iff, MaxwellTransfer]
  simp

theorem mtrans_add (P Q : Matrix n n ℂ) (s t : ℝ) (F : Tang n) :
    mtrans P Q (s + t) F = mtrans P Q t (mtrans P Q s F) := by
  symm
  rw [← maxwellTransfer_iff, MaxwellTransfer]
  have h : Sum.elim (mtrans P Q s F).E (mtrans P Q s F).H = _ := maxwellTransfer_iff.2 rfl
  have h' : Sum.elim (mtrans P Q t (mtrans P Q s F)).E (mtrans P Q t (mtrans P Q s F)).H = _ :=
    maxwellTransfer_iff.2 rfl
  rw [h', h, mulVec_mulVec]
  congr 1
  rw [← Matrix.exp_add_of_commute]
  · congr 1; push_cast; rw [add_smul, add_comm]
  · exact (Commute.refl _).smul_left _ |>.smul_right _

theorem mtrans_cancel (P Q : Matrix n n ℂ) (t : ℝ) (F : Tang n) : mtrans P Q t (mtrans P Q (-t) F) = F := by
  rw [← mtrans_add, neg_add_cancel, mtrans_zero]

theorem mtrans_injective {P Q : Matrix n n ℂ} {t : ℝ} {F G : Tang n} (h : mtrans P Q t F = mtrans P Q t G) : F = G := by
  have := congrArg (mtrans P Q (-t)) h
  rwa [← mtrans_add, ← mtrans_add, add_neg_cancel, mtrans_zero, mtrans_zero] at this

/-- The field at depth `z ≥ 0` of a stack, from the field at depth 0. -/
noncomputable def walk (k0 : ℝ) (Mt : Matrix n n ℂ × Matrix n n ℂ) :
    List ((Matrix n n ℂ × Matrix n n ℂ × ℝ) × ℝ) → ℝ → Tang n → Tang n
  | [], z, F => mtrans Mt.1 Mt.2 (k0 * z) F
  | (M, d) :: l, z, F => if z ≤ d then mtrans M.1 M.2.1 (k0 * z) F
      else walk k0 Mt l (z - d) (mtrans M.1 M.2.1 (k0 * d) F)

variable {k0 : ℝ} {Mt : Matrix n n ℂ × Matrix n n ℂ}

theorem walk_zero : ∀ {l : List ((Matrix n n ℂ × Matrix n n ℂ × ℝ) × ℝ)} (F : Tang n), (∀ q ∈ l, 0 ≤ q.2) →
    walk k0 Mt l 0 F = F
  | [], F, _ => by rw [walk, mul_zero, mtrans_zero]
  | (M, d) :: l, F, h => by rw [walk, if_pos (h (M, d) (by simp)), mul_zero, mtrans_zero]

theorem walk_cons_le {M : Matrix n n ℂ × Matrix n n ℂ × ℝ} {d z : ℝ} {l : List ((Matrix n n ℂ × Matrix n n ℂ × ℝ) × ℝ)}
    {F : Tang n} (h : ∀ q ∈ l, 0 ≤ q.2) (hz : d ≤ z) :
    walk k0 Mt ((M, d) :: l) z F = walk k0 Mt l (z - d) (mtrans M.1 M.2.1 (k0 * d) F) := by
  rcases hz.eq_or_lt with rfl | hz
  · rw [walk, if_pos le_rfl, sub_self, walk_zero _ h]
  · rw [walk, if_neg (not_le.2 hz)]

theorem walk_inside : ∀ {l : List ((Matrix n n ℂ × Matrix n n ℂ × ℝ) × ℝ)} {F : Tang n}, (∀ q ∈ l, 0 ≤ q.2) →
    ∀ {i : ℕ} {q : (Matrix n n ℂ × Matrix n n ℂ × ℝ) × ℝ}, l[i]? = some q → ∀ {z z' : ℝ},
    startOf (l.map Prod.snd) i ≤ z → z ≤ z' → z' ≤ startOf (l.map Prod.snd) (i + 1) →
    walk k0 Mt l z' F = mtrans q.1.1 q.1.2.1 (k0 * (z' - z)) (walk k0 Mt l z F)
  | [], F, _, i, q, hi, z, z', _, _, _ => by simp at hi
  | (M, d) :: l, F, h, 0, q, hi, z, z', h1, h2, h3 => by
    simp only [List.getElem?_cons_zero, Option.some.injEq] at hi
    subst hi
    simp only [startOf, List.map_cons, List.take_zero, List.sum_nil, zero_add, List.take_succ_cons, List.sum_cons,
      add_zero] at h1 h3
    rw [walk, walk, if_pos h3, if_pos (h2.trans h3), ← mtrans_add]
    congr 1; ring
  | (M, d) :: l, F, h, i + 1, q, hi, z, z', h1, h2, h3 => by
    rw [List.getElem?_cons_succ] at hi
    have hl : ∀ q ∈ l, 0 ≤ q.2 := fun q hq => h q (by simp [hq])
    simp only [startOf, List.map_cons, List.take_succ_cons, List.sum_cons] at h1 h3
    have h0 : 0 ≤ startOf (l.map Prod.snd) i := by
      have := startOf_mono (ds := l.map Prod.snd) (by simpa using fun d a b c hq => hl ((a, b, c), d) hq) (Nat.zero_le i)
      rwa [startOf_zero] at this
    simp only [startOf] at h0
    rw [walk_cons_le hl (by linarith), walk_cons_le hl (by linarith),
      walk_inside hl hi (z := z - d) (z' := z' - d) (by simp only [startOf]; linarith) (by linarith)
        (by simp only [startOf]; linarith)]
    congr 2; ring

theorem walk_after : ∀ {l : List ((Matrix n n ℂ × Matrix n n ℂ × ℝ) × ℝ)} {F : Tang n}, (∀ q ∈ l, 0 ≤ q.2) →
    ∀ {z z' : ℝ}, (l.map Prod.snd).sum ≤ z → z ≤ z' →
    walk k0 Mt l z' F = mtrans Mt.1 Mt.2 (k0 * (z' - z)) (walk k0 Mt l z F)
  | [], F, _, z, z', _, _ => by rw [walk, walk, ← mtrans_add]; congr 1; ring
  | (M, d) :: l, F, h, z, z', h1, h2 => by
    have hl : ∀ q ∈ l, 0 ≤ q.2 := fun q hq => h q (by simp [hq])
    have h0 : 0 ≤ (l.map Prod.snd).sum := List.sum_nonneg (by simpa using fun d a b c hq => hl ((a, b, c), d) hq)
    simp only [List.map_cons, List.sum_cons] at h1
    rw [walk_cons_le hl (by linarith), walk_cons_le hl (by linarith),
      walk_after hl (z := z - d) (z' := z' - d) (by linarith) (by linarith)]
    congr 2; ring

end

section
variable {n : Type} [Fintype n] [DecidableEq n] {k0 : ℝ} {Mr Mt : Matrix n n ℂ × Matrix n n ℂ}
  {Ms : List (Matrix n n ℂ × Matrix n n ℂ × ℝ)} {ds : List ℝ}

/-- There is a field profile with any given value at the entrance. -/
theorem deviceField_exists (hl : Ms.length = ds.length) (hd : ∀ d ∈ ds, 0 ≤ d) (F : Tang n) :
    ∃ Φ, DeviceField k0 Mr Ms ds Mt Φ ∧ Φ 0 = F := by
  have hds : (Ms.zip ds).map Prod.snd = ds := List.map_snd_zip hl.ge
  have hz : ∀ q ∈ Ms.zip ds, 0 ≤ q.2 := fun q hq => hd _ (List.of_mem_zip hq).2
  refine ⟨fun z => if z ≤ 0 then mtrans Mr.1 Mr.2 (k0 * z) F else walk k0 Mt (Ms.zip ds) z F, ⟨?_, ?_, ?_⟩, ?_⟩
  · intro z z' h1 h2
    rw [maxwellTransfer_iff, if_pos h2, if_pos (h1.trans h2), ← mtrans_add]
    congr 1; ring
  · intro i M hM z z' h1 h2 h3
    have hpos : ∀ {z : ℝ}, 0 ≤ z → (if z ≤ 0 then mtrans Mr.1 Mr.2 (k0 * z) F else walk k0 Mt (Ms.zip ds) z F) =
        walk k0 Mt (Ms.zip ds) z F := by
      intro z hz0
      split_ifs with h
      · have : z = 0 := le_antisymm h hz0
        rw [this, mul_zero, mtrans_zero, walk_zero _ hz]
      · rfl
    have h0 : 0 ≤ startOf ds i := by
      have := startOf_mono hd (Nat.zero_le i); rwa [startOf_zero] at this
    have hi := (List.getElem?_eq_some_iff.1 hM).1
    have hq : (Ms.zip ds)[i]? = some (M, ds[i]'(by omega)) := by
      rw [List.getElem?_zip_eq_some]; exact ⟨hM, List.getElem?_eq_getElem (by omega)⟩
    rw [maxwellTransfer_iff, hpos (by linarith), hpos (by linarith)]
    exact walk_inside hz hq (by rwa [hds]) h2 (by rwa [hds])
  · intro z z' h1 h2
    have h0 : 0 ≤ ds.sum := List.sum_nonneg hd
    have hpos : ∀ {z : ℝ}, 0 ≤ z → (if z ≤ 0 then mtrans Mr.1 Mr.2 (k0 * z) F else walk k0 Mt (Ms.zip ds) z F) =
        walk k0 Mt (Ms.zip ds) z F := by
      intro z hz0
      split_ifs with h
      · have : z = 0 := le_antisymm h hz0
        rw [this, mul_zero, mtrans_zero, walk_zero _ hz]
      · rfl
    rw [maxwellTransfer_iff, hpos (by linarith), hpos (by linarith)]
    exact walk_after hz (by rwa [hds]) h2
  · simp [mtrans_zero]

theorem DeviceField.step {Φ : ℝ → Tang n} (h : DeviceField k0 Mr Ms ds Mt Φ) (hd : ∀ d ∈ ds, 0 ≤ d)
    {i : ℕ} {M : Matrix n n ℂ × Matrix n n ℂ × ℝ} (hM : Ms[i]? = some M) :
    Φ (startOf ds (i + 1)) = mtrans M.1 M.2.1 (k0 * (startOf ds (i + 1) - startOf ds i)) (Φ (startOf ds i)) :=
  maxwellTransfer_iff.1 (h.inside i M hM _ _ le_rfl (startOf_mono hd (by omega)) le_rfl)

/-- A profile is determined by its value at the entrance. -/
theorem DeviceField.unique {Φ Ψ : ℝ → Tang n} (h : DeviceField k0 Mr Ms ds Mt Φ) (h' : DeviceField k0 Mr Ms ds Mt Ψ)
    (hl : Ms.length = ds.length) (hd : ∀ d ∈ ds, 0 ≤ d) (h0 : Φ 0 = Ψ 0) : Φ = Ψ := by
  have hstart : ∀ j, j ≤ ds.length → Φ (startOf ds j) = Ψ (startOf ds j) := by
    intro j
    induction j with
    | zero => intro _; rwa [startOf_zero]
    | succ j ih =>
      intro hj
      have hM : Ms[j]? = some (Ms[j]'(by omega)) := List.getElem?_eq_getElem (by omega)
      rw [h.step hd hM, h'.step hd hM, ih (by omega)]
  funext z
  obtain ⟨j, hj1, hj2, hj3⟩ := exists_fallsIn hd z
  rcases Nat.eq_zero_or_pos j with rfl | hj
  · have hz := hj3 (by omega)
    rw [startOf_zero] at hz
    have e1 := maxwellTransfer_iff.1 (h.before z 0 hz le_rfl)
    have e2 := maxwellTransfer_iff.1 (h'.before z 0 hz le_rfl)
    rw [h0, e2] at e1
    exact (mtrans_injective e1).symm
  · have hlo := (hj2 (j - 1) (by omega)).le
    rcases Nat.lt_or_ge ds.length j with hn | hn
    · have : j - 1 = ds.length := by omega
      rw [this, startOf_length] at hlo
      rw [maxwellTransfer_iff.1 (h.after _ z le_rfl hlo), maxwellTransfer_iff.1 (h'.after _ z le_rfl hlo),
        ← startOf_length, hstart _ le_rfl]
    · have hM : Ms[j - 1]? = some (Ms[j - 1]'(by omega)) := List.getElem?_eq_getElem (by omega)
      have e : j - 1 + 1 = j := by omega
      have hz := hj3 hn
      rw [maxwellTransfer_iff.1 (h.inside _ _ hM _ z le_rfl hlo (by rwa [e])),
        maxwellTransfer_iff.1 (h'.inside _ _ hM _ z le_rfl hlo (by rwa [e])), hstart _ (by omega)]

theorem mtrans_continuous (P Q : Matrix n n ℂ) (F : Tang n) (z0 : ℝ) (i : n) :
    Continuous (fun z => (mtrans P Q (k0 * (z - z0)) F).E i) ∧
      Continuous (fun z => (mtrans P Q (k0 * (z - z0)) F).H i) := by
  have h : ∀ j : n ⊕ n, Continuous fun z : ℝ =>
      (NormedSpace.exp (((k0 * (z - z0) : ℝ) : ℂ) • fromBlocks 0 P Q 0) *ᵥ Sum.elim F.E F.H) j := by
    intro j
    have h1 : Continuous fun τ : ℝ => (NormedSpace.exp ((τ : ℂ) • fromBlocks 0 P Q 0) *ᵥ Sum.elim F.E F.H) j :=
      continuous_iff_continuousAt.2 fun t => (hasDerivAt_exp_mulVec _ _ t j).continuousAt
    exact h1.comp (by fun_prop)
  exact ⟨h (.inl i), h (.inr i)⟩

/-- A profile is continuous. -/
theorem DeviceField.continuous {Φ : ℝ → Tang n} (h : DeviceField k0 Mr Ms ds Mt Φ) (hl : Ms.length = ds.length)
    (hd : ∀ d ∈ ds, 0 ≤ d) : Continuous (fun z => (Φ z).E) ∧ Continuous (fun z => (Φ z).H) := by
  suffices H : ∀ i, Continuous (fun z => ((Φ z).E i, (Φ z).H i)) from
    ⟨continuous_pi fun i => (H i).fst, continuous_pi fun i => (H i).snd⟩
  intro i
  set g : ℝ → ℂ × ℂ := fun z => ((Φ z).E i, (Φ z).H i) with hg
  have hm : ∀ (P Q : Matrix n n ℂ) (F : Tang n) (z0 : ℝ),
      Continuous fun z => ((mtrans P Q (k0 * (z - z0)) F).E i, (mtrans P Q (k0 * (z - z0)) F).H i) :=
    fun P Q F z0 => (mtrans_continuous P Q F z0 i).1.prodMk (mtrans_continuous P Q F z0 i).2
  have key : ∀ j, j ≤ ds.length → ContinuousOn g (Set.Iic (startOf ds j)) := by
    intro j
    induction j with
    | zero =>
      intro _
      refine ((hm Mr.1 Mr.2 (Φ 0) 0).continuousOn).congr fun z hz => ?_
      rw [startOf_zero, Set.mem_Iic] at hz
      have e := maxwellTransfer_iff.1 (h.before z 0 hz le_rfl)
      have : Φ z = mtrans Mr.1 Mr.2 (k0 * (z - 0)) (Φ 0) := by
        rw [e, ← mtrans_add]
        have : k0 * (0 - z) + k0 * (z - 0) = 0 := by ring
        rw [this, mtrans_zero]
      simp only [hg, ← this]
    | succ j ih =>
      intro hj
      have hM : Ms[j]? = some (Ms[j]'(by omega)) := List.getElem?_eq_getElem (by omega)
      have e : Set.Iic (startOf ds (j + 1)) = Set.Iic (startOf ds j) ∪ Set.Icc (startOf ds j) (startOf ds (j + 1)) :=
        (Set.Iic_union_Icc_eq_Iic (startOf_mono hd (by omega))).symm
      rw [e]
      refine (ih (by omega)).union_of_isClosed ?_ isClosed_Iic isClosed_Icc
      refine ((hm (Ms[j]'(by omega)).1 (Ms[j]'(by omega)).2.1 (Φ (startOf ds j)) (startOf ds j)).continuousOn).congr
        fun z hz => ?_
      have := maxwellTransfer_iff.1 (h.inside j _ hM _ z le_rfl hz.1 hz.2)
      simp only [hg, ← this]
  rw [← continuousOn_univ, ← Set.Iic_union_Ici (a := startOf ds ds.length)]
  refine (key _ le_rfl).union_of_isClosed ?_ isClosed_Iic isClosed_Ici
  rw [startOf_length]
  refine ((hm Mt.1 Mt.2 (Φ ds.sum) ds.sum).continuousOn).congr fun z hz => ?_
  have := maxwellTransfer_iff.1 (h.after _ z le_rfl hz)
  simp only [hg, ← this]

/-- The values of a profile at the two ends are related by the chain of the layers. -/
theorem DeviceField.chain {Φ : ℝ → Tang n} (h : DeviceField k0 Mr Ms ds Mt Φ) (hd : ∀ d ∈ ds, 0 ≤ d)
    (hM : List.Forall₂ (fun M d => M.2.2 = d * k0) Ms ds) :
    MaxwellChain Ms (Φ 0) (Φ ds.sum) := by
  have hl := hM.length_eq
  have key : ∀ k j, k + j = ds.length → MaxwellChain (Ms.drop j) (Φ (startOf ds j)) (Φ ds.sum) := by
    intro k
    induction k with
    | zero =>
      intro j hj
      rw [zero_add] at hj
      rw [hj, startOf_length, ← hl, List.drop_length]
      rfl
    | succ k ih =>
      intro j hj
      have hj' : j < Ms.length := by omega
      rw [List.drop_eq_getElem_cons hj']
      refine ⟨Φ (startOf ds (j + 1)), ?_, ih (j + 1) (by omega)⟩
      have e := h.step hd (List.getElem?_eq_getElem hj')
      have t := (List.forall₂_iff_get.1 hM).2 j hj' (by omega)
      simp only [List.get_eq_getElem] at t
      rw [maxwellTransfer_iff, e, t, startOf_succ (by omega)]
      congr 1; ring
  have := key ds.length 0 (by omega)
  rwa [startOf_zero, List.drop_zero] at this

theorem maxwellChain_functional : ∀ {Ms : List (Matrix n n ℂ × Matrix n n ℂ × ℝ)} {F G G' : Tang n},
    MaxwellChain Ms F G → MaxwellChain Ms F G' → G = G'
  | [], F, G, G', h, h' => by simp only [MaxwellChain] at h h'; rw [← h, ← h']
  | M :: Ms, F, G, G', ⟨K, h1, h2⟩, ⟨K', h1', h2'⟩ => by
    rw [maxwellTransfer_iff] at h1 h1'
    subst h1 h1'
    exact maxwellChain_functional h2 h2'

/-- A chain through a list of matrices from a sequence of amplitudes. -/
theorem chain_of_seq {Ss : List (SMat n)} {M : ℕ → Port n} (h : ∀ i S, Ss[i]? = some S → Scatters S (M i) (M (i + 1)))
    {k : ℕ} (hk : k ≤ Ss.length) : Chain (Ss.take k) (M 0) (M k) ∧ Chain (Ss.drop k) (M k) (M Ss.length) := by
  induction Ss generalizing M k with
  | nil =>
    have : k = 0 := by simpa using hk
    subst this
    exact ⟨rfl, rfl⟩
  | cons S Ss ih =>
    have h' : ∀ i S', Ss[i]? = some S' → Scatters S' (M (i + 1)) (M (i + 1 + 1)) := fun i S' hi =>
      h (i + 1) S' (by rwa [List.getElem?_cons_succ])
    have h0 := h 0 S rfl
    cases k with
    | zero =>
      obtain ⟨-, a⟩ := ih (M := fun i => M (i + 1)) h' (k := 0) (Nat.zero_le _)
      exact ⟨rfl, M 1, h0, by simpa using a⟩
    | succ k =>
      obtain ⟨a, b⟩ := ih (M := fun i => M (i + 1)) h' (k := k) (by simpa using hk)
      refine ⟨⟨M 1, h0, a⟩, ?_⟩
      simpa using b

end

section
variable {ι : Type} [Fintype ι] [DecidableEq ι]

theorem kzMasked_ofReal (x : ℝ) : kzMasked (x : ℂ) = outerKz x := by
  unfold kzMasked outerKz
  rcases le_or_gt 0 x with h | h
  · rw [if_pos h, if_neg (by simpa using h), csqrt_ofReal_nonneg h]
  · rw [if_neg (not_le.2 h), if_pos (by simpa using h)]
    have : -(x : ℂ) = ((-x : ℝ) : ℂ) := by push_cast; rfl
    rw [this, csqrt_ofReal_nonneg (by linarith)]

/-- The modes of a half space of real permittivity. -/
theorem halfSpaceModes_isModes {kx ky : ι → ℝ} {er : ℝ} (he : er ≠ 0) {W V : Matrix (ι ⊕ ι) (ι ⊕ ι) ℂ}
    {lam : ι ⊕ ι → ℂ}
    (h : halfSpaceModes (fun i => (kx i : ℂ)) (fun i => (ky i : ℂ)) (er : ℂ) = .ok (W, V, lam)) :
    IsModes (maxwellP (fun i => (kx i : ℂ)) (fun i => (ky i : ℂ)) ((er : ℂ) • 1))
      (maxwellQ (fun i => (kx i : ℂ)) (fun i => (ky i : ℂ)) ((er : ℂ) • 1)) W V lam := by
  have he' : (er : ℂ) ≠ 0 := by exact_mod_cast he
  simp only [halfSpaceModes, bind_eq_ok, npDivCols_eq_ok] at h
  obtain ⟨V', ⟨h0, rfl⟩, h⟩ := h
  simp only [pure, Except.pure, Except.ok.injEq, Prod.mk.injEq] at h
  obtain ⟨rfl, rfl, rfl⟩ := h
  obtain ⟨-, hP⟩ := structuredP_eq_ok.1 (structuredP_uniform (fun i => (kx i : ℂ)) (fun i => (ky i : ℂ)) he')
  have hk : ∀ i, star (csqrt ((er : ℂ) - (kx i : ℂ) ^ 2 - (ky i : ℂ) ^ 2)) =
      outerKz (er - kx i ^ 2 - ky i ^ 2) := by
    intro i; rw [← star_csqrt_ofReal]; push_cast; rfl
  rw [← hP, ← structuredQ_eq, ← qBlock_eq_structuredQ]
  refine uniform_isModes he' (fun i => ?_) (fun i => ?_)
  · have := h0 (.inl i)
    simpa [stack2] using this
  · rw [hk, outerKz_sq]; push_cast; rfl

/-- The modes of the gap are the plane waves of vacuum. -/
theorem gap_outer {kx ky : ι → ℝ} {W0 V0 : Matrix (ι ⊕ ι) (ι ⊕ ι) ℂ}
    (h0 : freeSpaceEigenmodes (fun i => (kx i : ℂ)) (fun i => (ky i : ℂ)) = .ok (W0, V0)) (p : Port (ι ⊕ ι)) :
    fieldOf W0 V0 p = outerField kx ky 1 p := by
  obtain ⟨h, h1, h2⟩ := freeSpaceEigenmodes_eq_ok.1 h0
  simp only at h1 h2
  have hk : ∀ i, star (csqrt (((1 : ℝ) : ℂ) - (kx i : ℂ) ^ 2 - (ky i : ℂ) ^ 2)) =
      kzMasked (1 - (kx i : ℂ) ^ 2 - (ky i : ℂ) ^ 2) := by
    intro i
    have e : (1 : ℂ) - (kx i : ℂ) ^ 2 - (ky i : ℂ) ^ 2 = ((1 - kx i ^ 2 - ky i ^ 2 : ℝ) : ℂ) := by push_cast; rfl
    rw [Complex.ofReal_one, e, star_csqrt_ofReal, kzMasked_ofReal]
  have hm : halfSpaceModes (fun i => (kx i : ℂ)) (fun i => (ky i : ℂ)) ((1 : ℝ) : ℂ) =
      .ok (W0, V0, stack2 fun i => Complex.I * kzMasked (1 - (kx i : ℂ) ^ 2 - (ky i : ℂ) ^ 2)) := by
    simp only [halfSpaceModes, hk, bind_eq_ok, npDivCols_eq_ok]
    refine ⟨_, ⟨?_, rfl⟩, ?_⟩
    · rintro (j | j) <;> simp [stack2, kzMasked_eq_zero, h j]
    · rw [h1, h2, Complex.ofReal_one]; rfl
  exact (halfSpaceModes_outer hm).2.2.2 p

end

end Khepri
