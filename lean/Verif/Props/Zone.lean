import Verif.Lemmas.Grid

/-!
# C55: Brillouin-zone paths and grids
-/

namespace Khepri

theorem bziBasis_eq_ok {a : ℝ} {rec : Option (R2 × R2)} {b : R2 × R2} :
    bziBasis a rec = .ok b ↔ (rec = none → a ≠ 0) ∧ b = zoneBasis a rec := by
  unfold zoneBasis
  cases rec with
  | none =>
    simp only [bziBasis, bind_eq_ok, pyCheck_eq_ok, pure, Except.pure, Except.ok.injEq, true_implies, Option.getD_none]
    constructor
    · rintro ⟨_, h, rfl⟩; exact ⟨h, rfl⟩
    · rintro ⟨h, rfl⟩; exact ⟨(), h, rfl⟩
  | some c =>
    simp [bziBasis, eq_comm]

/-- **C55.** `gen_bzi_grid` returns a `shape` grid whose point `(i, j)` is the midpoint of cell `(i, j)` of the zone cut
into `shape` equal cells; it fails only for an empty shape or, without vectors, a zero period. -/
theorem C55_grid (shape : ℕ × ℕ) (a : ℝ) (rec : Option (R2 × R2)) :
    (∀ g, genBziGrid shape a rec = .ok g → g.length = shape.1 ∧ (∀ r ∈ g, r.length = shape.2) ∧
      ∀ i < shape.1, ∀ j < shape.2, (g[i]?).bind (·[j]?) = some
        (((2 * i + 1) / (2 * shape.1) - 1 / 2 : ℝ) • (zoneBasis a rec).1 +
          ((2 * j + 1) / (2 * shape.2) - 1 / 2 : ℝ) • (zoneBasis a rec).2)) ∧
    ((∃ g, genBziGrid shape a rec = .ok g) ↔ shape.1 ≠ 0 ∧ shape.2 ≠ 0 ∧ (rec = none → a ≠ 0)) := by
  constructor
  · intro g hg
    obtain ⟨b, hb, h1, h2, rfl⟩ := genBziGrid_ok.1 hg
    obtain ⟨_, rfl⟩ := bziBasis_eq_ok.1 hb
    refine ⟨by simp, ?_, ?_⟩
    · intro r hr
      obtain ⟨i, _, rfl⟩ := List.mem_map.1 hr
      simp
    · intro i hi j hj
      simp only [List.getElem?_map, List.getElem?_range hi, List.getElem?_range hj, Option.map_some, Option.bind_some,
        Option.some.injEq, midpoint]
      ext <;> simp <;> ring
  · constructor
    · rintro ⟨g, hg⟩
      obtain ⟨b, hb, h1, h2, _⟩ := genBziGrid_ok.1 hg
      exact ⟨h1, h2, (bziBasis_eq_ok.1 hb).1⟩
    · rintro ⟨h1, h2, h3⟩
      exact ⟨_, genBziGrid_ok.2 ⟨_, bziBasis_eq_ok.2 ⟨h3, rfl⟩, h1, h2, rfl⟩⟩

/-- **C55.** Every grid point is inside the zone, and its opposite is a grid point too. -/
theorem C55_inside {shape : ℕ × ℕ} {a : ℝ} {rec : Option (R2 × R2)} {g : List (List R2)}
    (h : genBziGrid shape a rec = .ok g) {p : R2} (hp : p ∈ g.flatten) :
    (∃ s t : ℝ, |s| < 1 / 2 ∧ |t| < 1 / 2 ∧ p = s • (zoneBasis a rec).1 + t • (zoneBasis a rec).2) ∧ -p ∈ g.flatten := by
  obtain ⟨b, hb, h1, h2, rfl⟩ := genBziGrid_ok.1 h
  obtain ⟨_, rfl⟩ := bziBasis_eq_ok.1 hb
  simp only [List.mem_flatten, List.mem_map, List.mem_range, exists_exists_and_eq_and] at hp ⊢
  obtain ⟨i, hi, j, hj, rfl⟩ := hp
  constructor
  · refine ⟨midpoint shape.1 i, midpoint shape.2 j, ?_, ?_, ?_⟩
    · have := midpoint_bound hi; rw [abs_lt]; constructor <;> linarith
    · have := midpoint_bound hj; rw [abs_lt]; constructor <;> linarith
    · ext <;> simp <;> ring
  · refine ⟨shape.1 - 1 - i, by omega, shape.2 - 1 - j, by omega, ?_⟩
    rw [midpoint_neg hi, midpoint_neg hj]
    ext <;> simp <;> ring

/-- **C55.** Points of different cells differ, when the reciprocal vectors are independent. -/
theorem C55_distinct {shape : ℕ × ℕ} {a : ℝ} {rec : Option (R2 × R2)} {g : List (List R2)}
    (h : genBziGrid shape a rec = .ok g)
    (hd : (zoneBasis a rec).1.1 * (zoneBasis a rec).2.2 - (zoneBasis a rec).1.2 * (zoneBasis a rec).2.1 ≠ 0) :
    g.flatten.Nodup ∧ g.flatten.length = shape.1 * shape.2 := by
  obtain ⟨b, hb, h1, h2, rfl⟩ := genBziGrid_ok.1 h
  obtain ⟨_, rfl⟩ := bziBasis_eq_ok.1 hb
  generalize zoneBasis a rec = b at *
  have key : ∀ s t s' t' : ℝ, (b.1.1 * s + b.2.1 * t, b.1.2 * s + b.2.2 * t) =
      (b.1.1 * s' + b.2.1 * t', b.1.2 * s' + b.2.2 * t') → s = s' ∧ t = t' := by
    intro s t s' t' e
    rw [Prod.mk.injEq] at e
    constructor
    · apply mul_left_cancel₀ hd; linear_combination b.2.2 * e.1 - b.2.1 * e.2
    · apply mul_left_cancel₀ hd; linear_combination b.1.1 * e.2 - b.1.2 * e.1
  constructor
  · rw [List.nodup_flatten]
    constructor
    · intro l hl
      obtain ⟨i, hi, rfl⟩ := List.mem_map.1 hl
      refine List.Nodup.map_on ?_ List.nodup_range
      intro j hj j' _ e
      exact midpoint_inj (List.mem_range.1 hj) (key _ _ _ _ e).2
    · rw [List.pairwise_map]
      refine List.Pairwise.imp_of_mem ?_ (List.nodup_range (n := shape.1))
      intro i i' hi _ hne x hx hx'
      obtain ⟨j, _, rfl⟩ := List.mem_map.1 hx
      obtain ⟨j', _, e⟩ := List.mem_map.1 hx'
      exact hne (midpoint_inj (List.mem_range.1 hi) (key _ _ _ _ e.symm).1)
  · simp [List.length_flatten, List.map_map, Function.comp_def]

/-- **C55.** Averages over the grid are exact for lattice-periodic quantities: over the grid, the phases `exp(i k·R)` of a
lattice vector `R = m1 a1 + m2 a2` add up to 0, unless both `m1` and `m2` are multiples of the number of points. -/
theorem C55_quadrature {shape : ℕ × ℕ} {a : ℝ} {rec : Option (R2 × R2)} {g : List (List R2)}
    (h : genBziGrid shape a rec = .ok g) (R : R2) (m1 m2 : ℤ)
    (h1 : (zoneBasis a rec).1.1 * R.1 + (zoneBasis a rec).1.2 * R.2 = 2 * Real.pi * m1)
    (h2 : (zoneBasis a rec).2.1 * R.1 + (zoneBasis a rec).2.2 * R.2 = 2 * Real.pi * m2)
    (hm : ¬ ((shape.1 : ℤ) ∣ m1 ∧ (shape.2 : ℤ) ∣ m2)) :
    (g.flatten.map fun k => Complex.exp (Complex.I * ((k.1 * R.1 + k.2 * R.2 : ℝ) : ℂ))).sum = 0 := by
  obtain ⟨b, hb, hs1, hs2, rfl⟩ := genBziGrid_ok.1 h
  obtain ⟨_, rfl⟩ := bziBasis_eq_ok.1 hb
  generalize zoneBasis a rec = b at *
  have e : ∀ s t : ℝ, Complex.exp (Complex.I *
      (((b.1.1 * s + b.2.1 * t) * R.1 + (b.1.2 * s + b.2.2 * t) * R.2 : ℝ) : ℂ)) =
      Complex.exp (2 * Real.pi * Complex.I * m1 * s) * Complex.exp (2 * Real.pi * Complex.I * m2 * t) := by
    intro s t
    rw [← Complex.exp_add]
    congr 1
    have : ((b.1.1 * s + b.2.1 * t) * R.1 + (b.1.2 * s + b.2.2 * t) * R.2 : ℝ) =
        2 * Real.pi * m1 * s + 2 * Real.pi * m2 * t := by linear_combination s * h1 + t * h2
    rw [this]
    push_cast
    ring
  have hsum : ∀ {n : ℕ} (f : ℕ → ℂ), ((List.range n).map f).sum = ∑ i ∈ Finset.range n, f i := by
    intro n f
    induction n with
    | zero => simp
    | succ n ih => rw [List.range_succ, List.map_append, List.sum_append, ih, Finset.sum_range_succ]; simp
  have tot : ((((List.range shape.1).map fun i => (List.range shape.2).map fun j =>
      ((b.1.1 * midpoint shape.1 i + b.2.1 * midpoint shape.2 j,
        b.1.2 * midpoint shape.1 i + b.2.2 * midpoint shape.2 j) : R2)).flatten).map
          fun k => Complex.exp (Complex.I * ((k.1 * R.1 + k.2 * R.2 : ℝ) : ℂ))).sum =
      (∑ i ∈ Finset.range shape.1, Complex.exp (2 * Real.pi * Complex.I * m1 * midpoint shape.1 i)) *
        ∑ j ∈ Finset.range shape.2, Complex.exp (2 * Real.pi * Complex.I * m2 * midpoint shape.2 j) := by
    rw [List.map_flatten, List.sum_flatten, List.map_map, List.map_map, Finset.sum_mul_sum, hsum]
    refine Finset.sum_congr rfl fun i _ => ?_
    simp only [Function.comp_apply, List.map_map, Function.comp_def]
    rw [hsum]
    exact Finset.sum_congr rfl fun j _ => e _ _
  rw [tot]
  rcases not_and_or.1 hm with hm | hm
  · rw [midpoint_sum hs1 m1 hm, zero_mul]
  · rw [midpoint_sum hs2 m2 hm, mul_zero]

/-- **C55.** `bz_path` returns, segment after segment, the requested number of samples of that segment, equally spaced
from its first point on (its last point excluded). -/
theorem C55_path {ks : List String} {res : List ℤ} {a : ℝ} {path : List R2} (h : bzPath ks res a = .ok path) :
    path.length = ((List.range (ks.length - 1)).map fun i => (segmentSamples res i).toNat).sum ∧
    ∀ i k1 k2, ks[i]? = some k1 → ks[i + 1]? = some k2 → ∃ p q, namedKPoint a k1 = some p ∧ namedKPoint a k2 = some q ∧
      ∀ j < (segmentSamples res i).toNat,
        path[((List.range i).map fun i' => (segmentSamples res i').toNat).sum + j]? =
          some (p + ((j : ℝ) / (segmentSamples res i : ℝ)) • (q - p)) := by
  obtain ⟨ha, hk, hr, segs, rfl, hs⟩ := bzPath_eq_ok.1 h
  have hlen : segs.length = ks.length - 1 := by rw [← hs.length_eq, List.length_range]
  have lens : segs.map List.length = (List.range (ks.length - 1)).map fun i => (segmentSamples res i).toNat := by
    have : List.Forall₂ (fun i s => s.length = (segmentSamples res i).toNat) (List.range (ks.length - 1)) segs := by
      refine hs.imp ?_
      rintro i s ⟨k1, k2, p, q, _, _, _, _, rfl⟩
      simp
    have h2 : List.Forall₂ (fun x y => x = y) (segs.map List.length)
        ((List.range (ks.length - 1)).map fun i => (segmentSamples res i).toNat) := by
      rw [List.forall₂_map_left_iff, List.forall₂_map_right_iff]
      exact this.flip
    exact List.forall₂_eq_eq_eq ▸ h2
  refine ⟨by rw [List.length_flatten, lens], ?_⟩
  intro i k1 k2 e1 e2
  have hi : i < ks.length - 1 := by
    have := (List.getElem?_eq_some_iff.1 e2).1; omega
  have hg := hs.get (i := i) (by simpa using hi) (by omega)
  simp only [List.get_eq_getElem, List.getElem_range] at hg
  obtain ⟨k1', k2', p, q, h1, h2, hp, hq, he⟩ := hg
  rw [e1, Option.some.injEq] at h1
  rw [e2, Option.some.injEq] at h2
  subst h1 h2
  refine ⟨p, q, hp, hq, fun j hj => ?_⟩
  have hs' : segs[i]? = some segs[i] := List.getElem?_eq_getElem (by omega)
  have off : ((List.range i).map fun i' => (segmentSamples res i').toNat) = (segs.take i).map List.length := by
    rw [List.map_take, lens, ← List.map_take, List.take_range, min_eq_left hi.le]
  rw [off, flatten_getElem? segs i j _ hs' (by rw [he]; simpa using hj), he, List.getElem?_map, List.getElem?_range hj,
    Option.map_some]
  congr 1
  ext <;> simp <;> ring

/-- **C55.** `bz_path` answers exactly for at least two known points and 0, 1 or one resolution per segment. -/
theorem C55_path_defined {ks : List String} {res : List ℤ} {a : ℝ} : (∃ path, bzPath ks res a = .ok path) ↔
    a ≠ 0 ∧ 1 < ks.length ∧ (res.length = 0 ∨ res.length = 1 ∨ res.length = ks.length - 1) ∧
      ∀ k ∈ ks, k = "G" ∨ k = "X" ∨ k = "M" := by
  have hres : (bzResolutions (ks.length - 1) res).length = ks.length - 1 ↔
      res.length = 0 ∨ res.length = 1 ∨ res.length = ks.length - 1 := by
    unfold bzResolutions
    match res with
    | [] => simp
    | [r] => simp
    | r :: s :: t => simp
  have hname : ∀ k, (∃ p, namedKPoint a k = some p) ↔ k = "G" ∨ k = "X" ∨ k = "M" := by
    intro k
    unfold namedKPoint
    split <;> simp_all
  constructor
  · rintro ⟨path, h⟩
    obtain ⟨ha, hk, hr, segs, rfl, hs⟩ := bzPath_eq_ok.1 h
    refine ⟨ha, hk, hres.1 hr, fun k hk' => ?_⟩
    obtain ⟨i, hi, rfl⟩ := List.getElem_of_mem hk'
    have hlen : segs.length = ks.length - 1 := by rw [← hs.length_eq, List.length_range]
    rw [← hname]
    by_cases hl : i < ks.length - 1
    · have hg := hs.get (i := i) (by simpa using hl) (by omega)
      simp only [List.get_eq_getElem, List.getElem_range] at hg
      obtain ⟨k1', k2', p, q, h1, h2, hp, hq, he⟩ := hg
      rw [List.getElem?_eq_getElem hi, Option.some.injEq] at h1
      exact ⟨p, h1 ▸ hp⟩
    · have hg := hs.get (i := i - 1) (by simp; omega) (by omega)
      simp only [List.get_eq_getElem, List.getElem_range] at hg
      obtain ⟨k1', k2', p, q, h1, h2, hp, hq, he⟩ := hg
      rw [show i - 1 + 1 = i by omega, List.getElem?_eq_getElem hi, Option.some.injEq] at h2
      exact ⟨q, h2 ▸ hq⟩
  · rintro ⟨ha, hk, hr, hn⟩
    have hn' : ∀ i, i < ks.length → ∃ k p, ks[i]? = some k ∧ namedKPoint a k = some p := by
      intro i hi
      obtain ⟨p, hp⟩ := (hname ks[i]).2 (hn _ (List.getElem_mem hi))
      exact ⟨_, p, List.getElem?_eq_getElem hi, hp⟩
    choose! K P hK hP using hn'
    refine ⟨_, bzPath_eq_ok.2 ⟨ha, hk, hres.2 hr, (List.range (ks.length - 1)).map fun i =>
      (List.range (segmentSamples res i).toNat).map fun j : ℕ =>
        ((P i).1 + ((P (i + 1)).1 - (P i).1) * j / (segmentSamples res i : ℤ),
          (P i).2 + ((P (i + 1)).2 - (P i).2) * j / (segmentSamples res i : ℤ)), rfl, ?_⟩⟩
    rw [List.forall₂_map_right_iff, List.forall₂_same]
    intro i hi
    have hi' := List.mem_range.1 hi
    exact ⟨K i, K (i + 1), P i, P (i + 1), hK i (by omega), hK (i + 1) (by omega), hP i (by omega), hP (i + 1) (by omega), rfl⟩

/-- Non-vacuity of C55: the usual Γ-X-M-Γ path with its default resolutions, and a 3 by 2 grid. -/
example : (∃ path, bzPath ["G", "X", "M", "G"] [] 1 = .ok path) ∧ ∃ g, genBziGrid (3, 2) 1 none = .ok g :=
  ⟨C55_path_defined.2 ⟨one_ne_zero, by simp, Or.inl rfl, by simp⟩, (C55_grid _ _ _).2.2 ⟨by simp, by simp, by simp⟩⟩

/-- Non-vacuity of `C55_quadrature`: the square lattice of period 1 and the nearest lattice vector on a 3 by 2 grid. -/
example : ∃ g, genBziGrid (3, 2) 1 none = .ok g ∧
    (g.flatten.map fun k => Complex.exp (Complex.I * ((k.1 * 1 + k.2 * 0 : ℝ) : ℂ))).sum = 0 := by
  obtain ⟨g, hg⟩ := (C55_grid (3, 2) 1 none).2.2 ⟨by simp, by simp, by simp⟩
  exact ⟨g, hg, C55_quadrature hg (1, 0) 1 0 (by simp [zoneBasis]) (by simp [zoneBasis]) (by norm_num)⟩

end Khepri
