import Verif.Lemmas.Convolution
import Verif.Model.Layer

/-!
The convolution matrix of an analytical layer, entry by entry.
-/

set_option linter.unusedSectionVars false
set_option linter.unusedSimpArgs false

namespace Khepri

open Complex Matrix

variable {N : ℕ}

/-- The value of a transform (0 when it raises). -/
noncomputable def shapeValue (jv1 : ℝ → ℝ) (s : Shape) (g : R2) (sigma : ℝ) : ℂ :=
  match transformShape jv1 s g sigma with
  | .ok t => t
  | .error _ => 0

/-- `3 p` harmonics along an axis with more than one, one otherwise. -/
def triple (p : ℕ) : ℕ := if p > 1 then p * 3 else 1

/-- Fourier coefficient at order `mn` of islands in a host. -/
noncomputable def islandCoef (jv1 : ℝ → ℝ) (b : R2 × R2) (sigma : ℝ) (islands : List Island) (host : ℂ)
    (mn : ℤ × ℤ) : ℂ :=
  (if mn = (0, 0) then host else 0) +
    (islands.map fun s => (s.eps - host) * shapeValue jv1 s.shape (latticeVec b mn) sigma).sum

/-- Position in the table of `convolution_matrix_fourier`, for a difference of orders. -/
def tablePos (pw : ℕ × ℕ) (r c : ℕ) : ℕ :=
  ((triple pw.1 / 2 : ℕ) + (diffAt pw.1 r c).1 : ℤ).toNat * triple pw.2 +
    ((triple pw.2 / 2 : ℕ) + (diffAt pw.1 r c).2 : ℤ).toNat

theorem getD_getElem {α : Type} (l : List α) (d : α) {k : ℕ} (h : k < l.length) : l.getD k d = l[k] := by
  simp [List.getD, h]

theorem foldl_masks (L : ℕ) (host : ℂ) (data : List (List ℂ × ℂ)) (hd : ∀ d ∈ data, d.1.length = L) :
    ∀ (start : List ℂ), start.length = L →
      (data.foldl (fun acc d => List.zipWith (· + ·) acc (d.1.map fun b => (d.2 - host) * b)) start).length = L ∧
      ∀ k < L, (data.foldl (fun acc d => List.zipWith (· + ·) acc (d.1.map fun b => (d.2 - host) * b)) start).getD k 0 =
        start.getD k 0 + (data.map fun d => (d.2 - host) * d.1.getD k 0).sum := by
  induction data with
  | nil => intro start h; exact ⟨h, fun k _ => by simp⟩
  | cons d data ih =>
    intro start h
    have h1 := hd d List.mem_cons_self
    obtain ⟨e1, e2⟩ := ih (fun d' h' => hd d' (List.mem_cons_of_mem _ h'))
      (List.zipWith (· + ·) start (d.1.map fun b => (d.2 - host) * b)) (by simp [h, h1])
    refine ⟨by simpa using e1, fun k hk => ?_⟩
    rw [List.foldl_cons, e2 k hk, List.map_cons, List.sum_cons, ← add_assoc]
    congr 1
    have hks : k < start.length := by omega
    have hkd : k < d.1.length := by omega
    have hkz : k < (List.zipWith (· + ·) start (d.1.map fun b => (d.2 - host) * b)).length := by
      simp; omega
    rw [getD_getElem _ _ hkz, List.getElem_zipWith, List.getElem_map, getD_getElem _ _ hks,
      getD_getElem _ _ hkd]

theorem triple_odd {p : ℕ} (h : p % 2 = 1) : triple p % 2 = 1 := by unfold triple; split_ifs <;> omega

theorem odd_of_triple {p : ℕ} (hp : p ≠ 0) (h : triple p % 2 = 1) : p % 2 = 1 := by
  unfold triple at h; split_ifs at h <;> omega

theorem triple_bound {p : ℕ} {d : ℤ} (h : p % 2 = 1) (hd : |d| < p) :
    0 ≤ (triple p / 2 : ℕ) + d ∧ ((triple p / 2 : ℕ) + d : ℤ) < triple p := by
  rw [abs_lt] at hd
  unfold triple; split_ifs <;> omega

/-- The transforms needed exist. -/
def Transforms (jv1 : ℝ → ℝ) (e : Expansion N) (islands : List Island) : Prop :=
  ∀ s ∈ islands, ∀ k < triple e.pw.1 * triple e.pw.2, ∃ t,
    transformShape jv1 s.shape (latticeVec e.reciprocal (orderAt (triple e.pw.1, triple e.pw.2) k)) e.sigma = .ok t

theorem shapeValue_of {jv1 : ℝ → ℝ} {s : Shape} {g : R2} {sigma : ℝ} {t : ℂ}
    (h : transformShape jv1 s g sigma = .ok t) : shapeValue jv1 s g sigma = t := by
  simp only [shapeValue, h]

theorem analyticalC_ok {jv1 : ℝ → ℝ} {e : Expansion N} {islands : List Island} {host : ℂ}
    (h1 : e.pw.1 % 2 = 1) (h2 : e.pw.2 % 2 = 1) (hne : islands ≠ []) (ht : Transforms jv1 e islands) :
    analyticalC jv1 e islands host = .ok (Matrix.of fun r c => islandCoef jv1 e.reciprocal e.sigma islands host
      (orderAt (triple e.pw.1, triple e.pw.2) (tablePos e.pw r c))) := by
  set E : ℕ × ℕ := (triple e.pw.1, triple e.pw.2) with hE
  have o1 : E.1 % 2 = 1 := triple_odd h1
  have o2 : E.2 % 2 = 1 := triple_odd h2
  have hg : e.gVectorsExpanded 3 = .ok (((List.range (E.1 * E.2)).map (orderAt E)).map (latticeVec e.reciprocal), E) := by
    have := generateExpansionIndices_eq (pw := E) o1 o2
    simp only [Expansion.gVectorsExpanded]
    rw [show ((if e.pw.1 > 1 then e.pw.1 * 3 else 1), (if e.pw.2 > 1 then e.pw.2 * 3 else 1)) = E from rfl, this]
    rfl
  set gs := ((List.range (E.1 * E.2)).map (orderAt E)).map (latticeVec e.reciprocal) with hgs
  have hlen : gs.length = E.1 * E.2 := by simp [hgs]
  have hdata : (islands.mapM fun isl => do
      let t ← gs.mapM fun g => transformShape jv1 isl.shape g e.sigma
      return (t, isl.eps) : Py (List (List ℂ × ℂ))) =
      .ok (islands.map fun isl => (gs.map fun g => shapeValue jv1 isl.shape g e.sigma, isl.eps)) := by
    refine mapM_ok_of fun isl hi => ?_
    have : gs.mapM (fun g => transformShape jv1 isl.shape g e.sigma) =
        .ok (gs.map fun g => shapeValue jv1 isl.shape g e.sigma) := by
      refine mapM_ok_of fun g hg => ?_
      simp only [hgs, List.mem_map, List.mem_range] at hg
      obtain ⟨_, ⟨k, hk, rfl⟩, rfl⟩ := hg
      obtain ⟨t, ht⟩ := ht isl hi k hk
      rw [ht, shapeValue_of ht]
    simp only [this, ok_bind]
    rfl
  set data := islands.map fun isl => (gs.map fun g => shapeValue jv1 isl.shape g e.sigma, isl.eps) with hdt
  have hdl : ∀ d ∈ data, d.1.length = E.1 * E.2 := by
    intro d hd
    simp only [hdt, List.mem_map] at hd
    obtain ⟨isl, -, rfl⟩ := hd
    simp [hlen]
  obtain ⟨i0, rest, rfl⟩ := List.exists_cons_of_ne_nil hne
  have hfirst : pyGet data 0 = .ok (gs.map fun g => shapeValue jv1 i0.shape g e.sigma, i0.eps) := by
    rw [pyGet_eq_ok, hdt]; rfl
  set start := (List.replicate (E.1 * E.2) (0 : ℂ)).set ((E.1 * E.2 - 1) / 2) host with hstart
  set F := data.foldl (fun acc d => List.zipWith (· + ·) acc (d.1.map fun b => (d.2 - host) * b)) start with hF
  have hcomb : combineFourierMasks data host = .ok F := by
    simp only [combineFourierMasks, hfirst, ok_bind, List.length_map, hlen]
    rfl
  obtain ⟨hFl, hFk⟩ := foldl_masks (E.1 * E.2) host data hdl start (by simp [hstart])
  have hpos : 0 < E.1 * E.2 := Nat.mul_pos (by omega) (by omega)
  have hFval : ∀ k < E.1 * E.2, F.getD k 0 =
      islandCoef jv1 e.reciprocal e.sigma (i0 :: rest) host (orderAt E k) := by
    intro k hk
    rw [hF, hFk k hk, islandCoef]
    congr 1
    · have hk' : k < start.length := by simp [hstart, hk]
      rw [getD_getElem _ _ hk']
      simp only [hstart, List.getElem_set, List.getElem_replicate]
      have hc := orderAt_center o1 o2
      by_cases hkc : (E.1 * E.2 - 1) / 2 = k
      · rw [if_pos hkc, if_pos (by rw [← hkc, hc])]
      · rw [if_neg hkc, if_neg]
        intro h
        exact hkc (orderAt_injOn (pw := E) (by rw [hc, h]))
    · rw [hdt, List.map_map]
      congr 1
      refine List.map_congr_left fun s _ => ?_
      simp only [Function.comp_apply]
      congr 1
      rw [getD_getElem _ _ (by simp [hlen, hk])]
      simp [hgs]
  have hre : reshape2 F E = .ok ⟨E.1, E.2, fun i j => F.getD (i * E.2 + j) 0⟩ := by
    have hFl' : F.length = E.1 * E.2 := hFl
    simp only [reshape2, pyCheck_ok hFl', ok_bind]; rfl
  simp only [analyticalC, hg, ok_bind, hdata, hcomb, hre]
  unfold convolutionMatrixFourier
  simp only
  refine bind_eq_ok.2 ⟨fun r c => islandCoef jv1 e.reciprocal e.sigma (i0 :: rest) host
    (orderAt E (tablePos e.pw r c)), ?_, rfl⟩
  refine pyFinM_eq_ok.2 fun r => pyFinM_eq_ok.2 fun c => ?_
  have hN := e.hpw
  have hr : (r : ℕ) < e.pw.1 * e.pw.2 := by rw [hN]; exact r.2
  have hc : (c : ℕ) < e.pw.1 * e.pw.2 := by rw [hN]; exact c.2
  obtain ⟨b1, b2⟩ := diffAt_bound hr hc
  obtain ⟨t1, t2⟩ := triple_bound h1 b1
  obtain ⟨t3, t4⟩ := triple_bound h2 b2
  have hi : (((E.1 / 2 : ℕ) : ℤ) + (diffAt e.pw.1 r c).1).toNat < E.1 := by
    simp only [hE]; omega
  have hj : (((E.2 / 2 : ℕ) : ℤ) + (diffAt e.pw.1 r c).2).toNat < E.2 := by
    simp only [hE]; omega
  refine bind_eq_ok.2 ⟨⟨_, hi⟩, npIndex_eq_ok.2 (Or.inl ?_), bind_eq_ok.2
    ⟨⟨_, hj⟩, npIndex_eq_ok.2 (Or.inl ?_), ?_⟩⟩
  · simp only [hE, diffAt] at t1 ⊢; omega
  · simp only [hE, diffAt] at t3 ⊢; omega
  · simp only [pure, Except.pure, Except.ok.injEq]
    have hk : (((E.1 / 2 : ℕ) : ℤ) + (diffAt e.pw.1 r c).1).toNat * E.2 +
        (((E.2 / 2 : ℕ) : ℤ) + (diffAt e.pw.1 r c).2).toNat < E.1 * E.2 := by
      calc _ < (((E.1 / 2 : ℕ) : ℤ) + (diffAt e.pw.1 r c).1).toNat * E.2 + E.2 := by omega
        _ = ((((E.1 / 2 : ℕ) : ℤ) + (diffAt e.pw.1 r c).1).toNat + 1) * E.2 := by ring
        _ ≤ E.1 * E.2 := Nat.mul_le_mul_right _ hi
    exact hFval _ hk

theorem analyticalC_eq_ok {jv1 : ℝ → ℝ} {e : Expansion N} {islands : List Island} {host : ℂ}
    {C : Matrix (Fin N) (Fin N) ℂ} (h : analyticalC jv1 e islands host = .ok C) (h0 : e.pw.1 ≠ 0 ∧ e.pw.2 ≠ 0) :
    (e.pw.1 % 2 = 1 ∧ e.pw.2 % 2 = 1) ∧ islands ≠ [] ∧ Transforms jv1 e islands ∧
      C = Matrix.of fun r c : Fin N => islandCoef jv1 e.reciprocal e.sigma islands host
        (orderAt (triple e.pw.1, triple e.pw.2) (tablePos e.pw r c)) := by
  have h' := h
  simp only [analyticalC, bind_eq_ok] at h
  obtain ⟨⟨gs, epw⟩, hg, data, hd, F, hF, -⟩ := h
  simp only [Expansion.gVectorsExpanded, bind_eq_ok] at hg
  obtain ⟨idx, hidx, hg⟩ := hg
  obtain ⟨o1, o2, rfl⟩ := generateExpansionIndices_ok hidx
  have p1 : e.pw.1 % 2 = 1 := odd_of_triple h0.1 o1
  have p2 : e.pw.2 % 2 = 1 := odd_of_triple h0.2 o2
  simp only [pure, Except.pure, Except.ok.injEq, Prod.mk.injEq] at hg
  obtain ⟨hgs, -⟩ := hg
  have hne : islands ≠ [] := by
    rintro rfl
    simp only [List.mapM_nil, pure, Except.pure, Except.ok.injEq] at hd
    subst hd
    simp [combineFourierMasks, pyGet, error_bind] at hF
  have ht : Transforms jv1 e islands := by
    intro s hs k hk
    rw [mapM_eq_ok] at hd
    obtain ⟨i, hi, rfl⟩ := List.getElem_of_mem hs
    have := (List.forall₂_iff_get.1 hd).2 i hi (by rw [← hd.length_eq]; exact hi)
    simp only [List.get_eq_getElem, bind_eq_ok] at this
    obtain ⟨t, ht, -⟩ := this
    rw [mapM_eq_ok] at ht
    have hkg : k < gs.length := by rw [← hgs, List.length_map, List.length_map, List.length_range]; exact hk
    have := (List.forall₂_iff_get.1 ht).2 k hkg (by rw [← ht.length_eq]; exact hkg)
    simp only [List.get_eq_getElem] at this
    refine ⟨t[k]'(by rw [← ht.length_eq]; exact hkg), ?_⟩
    rw [← this]
    congr 1
    simp only [← hgs, List.getElem_map, List.getElem_range]
    rfl
  refine ⟨⟨p1, p2⟩, hne, ht, ?_⟩
  rw [analyticalC_ok p1 p2 hne ht, Except.ok.injEq] at h'
  exact h'.symm

/-! ### Conjugate symmetry -/

theorem fexpz_conj (z : ℂ) : fexpz (star z) = star (fexpz z) := by
  unfold fexpz
  rw [norm_star]
  split_ifs
  · simp only [Complex.star_def, map_div₀, map_sub, map_one, exp_conj]
  · simp only [Complex.star_def, map_add, map_mul, map_div₀, map_one, map_ofNat]

theorem transformRectangle_neg (a b c d : ℝ) (g : R2) (sigma : ℝ) :
    transformRectangle a b c d (-g) sigma = star (transformRectangle a b c d g sigma) := by
  simp only [transformRectangle, Prod.fst_neg, Prod.snd_neg]
  rw [star_mul', star_mul', star_mul', ← fexpz_conj, ← fexpz_conj]
  simp only [Complex.star_def, ← exp_conj, map_div₀, map_mul, map_neg, map_add, conj_I, conj_ofReal, map_sub]
  push_cast
  have e1 : ∀ x y : ℂ, -I * -x * y = - -I * x * y := fun x y => by ring
  have e2 : -I * (a * -g.1 + b * -g.2 : ℂ) = - -I * (a * g.1 + b * g.2) := by ring
  rw [e1, e1, e2]

theorem transformDisc_neg (jv1 : ℝ → ℝ) (c0 c1 r : ℝ) (g : R2) (sigma : ℝ) {t : ℂ}
    (h : transformDisc jv1 c0 c1 r g sigma = .ok t) : transformDisc jv1 c0 c1 r (-g) sigma = .ok (star t) := by
  simp only [transformDisc, Prod.fst_neg, Prod.snd_neg, abs_neg, neg_mul_neg] at h ⊢
  split_ifs at h ⊢ with h1 h2
  · simp only [pure, Except.pure, Except.ok.injEq] at h ⊢
    rw [← h, Complex.star_def, conj_ofReal]
  · simp [throw, throwThe, MonadExceptOf.throw, error_bind] at h
  · simp only [pure, Except.pure, Except.ok.injEq, ok_bind] at h ⊢
    have h' := h
    rw [← h']
    simp only [Complex.star_def, map_div₀, map_mul, ← exp_conj, map_neg, map_add, conj_I, conj_ofReal]
    push_cast
    congr 3
    ring_nf

theorem transformShape_neg {jv1 : ℝ → ℝ} {s : Shape} {g : R2} {sigma : ℝ} {t : ℂ}
    (h : transformShape jv1 s g sigma = .ok t) : transformShape jv1 s (-g) sigma = .ok (star t) := by
  cases s with
  | rectangle a b c d =>
    simp only [transformShape, Except.ok.injEq] at h ⊢
    rw [← h, transformRectangle_neg]
  | disc a b r => exact transformDisc_neg jv1 a b r g sigma h
  | ellipse => simp [transformShape] at h

theorem latticeVec_neg (b : R2 × R2) (mn : ℤ × ℤ) : latticeVec b (-mn) = -latticeVec b mn := by
  simp only [latticeVec, Prod.fst_neg, Prod.snd_neg, Prod.neg_mk, Int.cast_neg, Prod.mk.injEq]
  constructor <;> ring

theorem diffAt_swap (P r c : ℕ) : diffAt P c r = -diffAt P r c := by
  simp only [diffAt, Prod.neg_mk, Prod.mk.injEq]
  constructor <;> ring

theorem tablePos_swap {pw : ℕ × ℕ} (h1 : pw.1 % 2 = 1) (h2 : pw.2 % 2 = 1) {r c : ℕ} (hr : r < pw.1 * pw.2)
    (hc : c < pw.1 * pw.2) : tablePos pw r c < triple pw.1 * triple pw.2 ∧
      tablePos pw c r = triple pw.1 * triple pw.2 - 1 - tablePos pw r c := by
  obtain ⟨b1, b2⟩ := diffAt_bound hr hc
  obtain ⟨t1, t2⟩ := triple_bound h1 b1
  obtain ⟨t3, t4⟩ := triple_bound h2 b2
  obtain ⟨t1', t2'⟩ := triple_bound (d := -(diffAt pw.1 r c).1) h1 (by rwa [abs_neg])
  obtain ⟨t3', t4'⟩ := triple_bound (d := -(diffAt pw.1 r c).2) h2 (by rwa [abs_neg])
  have o1 := triple_odd h1
  have o2 := triple_odd h2
  unfold tablePos
  rw [diffAt_swap pw.1 r c, Prod.fst_neg, Prod.snd_neg]
  generalize (diffAt pw.1 r c).1 = d at *
  generalize (diffAt pw.1 r c).2 = d' at *
  generalize triple pw.1 = E at *
  generalize triple pw.2 = E' at *
  obtain ⟨i, hi⟩ : ∃ i : ℕ, (i : ℤ) = (E / 2 : ℕ) + d := ⟨_, Int.toNat_of_nonneg t1⟩
  obtain ⟨i', hi'⟩ : ∃ i : ℕ, (i : ℤ) = (E / 2 : ℕ) + -d := ⟨_, Int.toNat_of_nonneg t1'⟩
  obtain ⟨j, hj⟩ : ∃ i : ℕ, (i : ℤ) = (E' / 2 : ℕ) + d' := ⟨_, Int.toNat_of_nonneg t3⟩
  obtain ⟨j', hj'⟩ : ∃ i : ℕ, (i : ℤ) = (E' / 2 : ℕ) + -d' := ⟨_, Int.toNat_of_nonneg t3'⟩
  rw [← hi, ← hi', ← hj, ← hj']
  simp only [Int.toNat_natCast]
  have s1 : i + i' + 1 = E := by omega
  have s2 : j + j' + 1 = E' := by omega
  subst s1 s2
  have : (i + i' + 1) * (j + j' + 1) = (i * (j + j' + 1) + j) + (i' * (j + j' + 1) + j') + 1 := by ring
  rw [this]
  omega

/-- The convolution matrix of islands of real permittivities in a real host is Hermitian. -/
theorem analyticalC_hermitian {jv1 : ℝ → ℝ} {e : Expansion N} {islands : List Island} {host : ℂ}
    {C : Matrix (Fin N) (Fin N) ℂ} (h : analyticalC jv1 e islands host = .ok C) (hh : host.im = 0)
    (hi : ∀ s ∈ islands, s.eps.im = 0) : C.IsHermitian := by
  by_cases h0 : e.pw.1 ≠ 0 ∧ e.pw.2 ≠ 0
  · obtain ⟨⟨p1, p2⟩, hne, ht, rfl⟩ := analyticalC_eq_ok h h0
    ext r c
    have hN := e.hpw
    have hr : (r : ℕ) < e.pw.1 * e.pw.2 := by rw [hN]; exact r.2
    have hc : (c : ℕ) < e.pw.1 * e.pw.2 := by rw [hN]; exact c.2
    obtain ⟨k1, k2⟩ := tablePos_swap p1 p2 hr hc
    rw [Matrix.conjTranspose_apply, Matrix.of_apply, Matrix.of_apply, k2]
    have := orderAt_opposite (pw := (triple e.pw.1, triple e.pw.2)) (triple_odd p1) (triple_odd p2) k1
    rw [this]
    have hH : star host = host := Complex.conj_eq_iff_im.2 hh
    simp only [islandCoef, star_add, neg_eq_zero, ← Prod.zero_eq_mk]
    congr 1
    · split_ifs <;> simp [hH]
    · have key : ∀ l : List ℂ, star l.sum = (l.map star).sum := by
        intro l
        induction l with
        | nil => simp
        | cons a l ih => simp [ih]
      rw [key, List.map_map]
      congr 1
      refine List.map_congr_left fun s hs => ?_
      obtain ⟨t, ht⟩ := ht s hs _ k1
      have hE : star s.eps = s.eps := Complex.conj_eq_iff_im.2 (hi s hs)
      rw [Function.comp_apply, star_mul', star_sub, hE, hH, latticeVec_neg, shapeValue_of ht,
        shapeValue_of (transformShape_neg ht), star_star]
  · have hN : N = 0 := by
      rw [← e.hpw]
      push Not at h0
      by_cases h1 : e.pw.1 = 0
      · rw [h1, zero_mul]
      · rw [h0 h1, mul_zero]
    subst hN
    ext r
    exact r.elim0

end Khepri
