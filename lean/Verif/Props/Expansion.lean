import Verif.Lemmas.Expansion

/-!
# Properties C17, C21, C22, C25: plane-wave expansions and the incident wave
-/

namespace Khepri

/-! ### C21 -/

/-- **C21.** For odd counts `generate_expansion_indices(pw)` returns `prod(pw)` columns, each order
`(m, n)` with `|m| ≤ (pw0-1)/2`, `|n| ≤ (pw1-1)/2` exactly once; positions `g` and `prod(pw)-1-g` hold
opposite orders and `(0, 0)` is in the middle. -/
theorem C21_orders {pw : ℕ × ℕ} (h1 : Odd pw.1) (h2 : Odd pw.2) :
    ∃ l, generateExpansionIndices pw = .ok l ∧ l.length = pw.1 * pw.2 ∧ l.Nodup ∧
      (∀ m n : ℤ, (m, n) ∈ l ↔ 2 * |m| ≤ pw.1 - 1 ∧ 2 * |n| ≤ pw.2 - 1) ∧
      (∀ g, g < pw.1 * pw.2 → ∃ m n : ℤ, l[g]? = some (m, n) ∧
        l[pw.1 * pw.2 - 1 - g]? = some (-m, -n)) ∧
      l[(pw.1 * pw.2 - 1) / 2]? = some (0, 0) := by
  rw [Nat.odd_iff] at h1 h2
  have hodd : (pw.1 * pw.2) % 2 = 1 := by rw [Nat.mul_mod, h1, h2]
  refine ⟨_, generateExpansionIndices_eq h1 h2, by simp, ?_, ?_, ?_, ?_⟩
  · exact List.Nodup.map (fun g g' h => orderAt_injOn h) List.nodup_range
  · intro m n
    simp only [List.mem_map, List.mem_range]
    constructor
    · rintro ⟨g, hg, he⟩
      have hq : g / pw.1 < pw.2 := Nat.div_lt_of_lt_mul hg
      have hr : g % pw.1 < pw.1 := Nat.mod_lt _ (by omega)
      simp only [orderAt, Prod.mk.injEq] at he
      generalize g / pw.1 = q at *
      generalize g % pw.1 = r at *
      constructor
      · rcases abs_cases m with ⟨e, -⟩ | ⟨e, -⟩ <;> rw [e] <;> omega
      · rcases abs_cases n with ⟨e, -⟩ | ⟨e, -⟩ <;> rw [e] <;> omega
    · rintro ⟨hm, hn⟩
      have hm1 := neg_abs_le m
      have hm2 := le_abs_self m
      have hn1 := neg_abs_le n
      have hn2 := le_abs_self n
      obtain ⟨a, ha⟩ : ∃ a : ℕ, (a : ℤ) = m + ((pw.1 - 1) / 2 : ℕ) :=
        ⟨(m + ((pw.1 - 1) / 2 : ℕ)).toNat, by omega⟩
      obtain ⟨b, hb⟩ : ∃ b : ℕ, (b : ℤ) = n + ((pw.2 - 1) / 2 : ℕ) :=
        ⟨(n + ((pw.2 - 1) / 2 : ℕ)).toNat, by omega⟩
      have ha' : a < pw.1 := by omega
      have hb' : b < pw.2 := by omega
      refine ⟨pw.1 * b + a, ?_, ?_⟩
      · calc pw.1 * b + a < pw.1 * b + pw.1 := by omega
          _ = pw.1 * (b + 1) := by ring
          _ ≤ pw.1 * pw.2 := Nat.mul_le_mul_left _ hb'
      · simp only [orderAt, Nat.mul_add_mod, Nat.mod_eq_of_lt ha',
          Nat.mul_add_div (show 0 < pw.1 by omega), Nat.div_eq_of_lt ha', Prod.mk.injEq]
        omega
  · intro g hg
    refine ⟨(orderAt pw g).1, (orderAt pw g).2, ?_, ?_⟩
    · simp [List.getElem?_range hg]
    · rw [List.getElem?_map, List.getElem?_range (by omega)]
      simp only [Option.map_some, orderAt_opposite h1 h2 hg]
      rfl
  · rw [List.getElem?_map, List.getElem?_range (by omega)]
    simp only [Option.map_some, orderAt_center h1 h2]

/-- **C21.** Any even count makes `generate_expansion_indices` raise. -/
theorem C21_even_raises {pw : ℕ × ℕ} (h : Even pw.1 ∨ Even pw.2) :
    generateExpansionIndices pw = .error .assertion := by
  rw [Nat.even_iff, Nat.even_iff] at h
  exact generateExpansionIndices_even h

example : ∃ l, generateExpansionIndices (5, 3) = .ok l ∧ l.length = 15 := by
  obtain ⟨l, h, h', -⟩ := C21_orders (pw := (5, 3)) ⟨2, rfl⟩ ⟨1, rfl⟩
  exact ⟨l, h, h'⟩

/-! ### C22 -/

/-- Euclidean product in the plane. -/
def dot2 (a b : R2) : ℝ := a.1 * b.1 + a.2 * b.2

/-- **C22.** `a_i · b_j = 2π δ_ij`, and this determines the reciprocal basis. -/
theorem C22_duality {a1 a2 b1 b2 : R2} (h : reciproc a1 a2 = .ok (b1, b2)) :
    (dot2 a1 b1 = 2 * Real.pi ∧ dot2 a1 b2 = 0 ∧ dot2 a2 b1 = 0 ∧ dot2 a2 b2 = 2 * Real.pi) ∧
    ∀ c1 c2 : R2, dot2 a1 c1 = 2 * Real.pi → dot2 a2 c1 = 0 → dot2 a1 c2 = 0 →
      dot2 a2 c2 = 2 * Real.pi → c1 = b1 ∧ c2 = b2 := by
  obtain ⟨hd, he⟩ := reciproc_eq_ok.1 h
  simp only [Prod.mk.injEq] at he
  obtain ⟨rfl, rfl⟩ := he
  have e1 : ∀ x y u v D : ℝ, D = x * v - y * u → D ≠ 0 →
      x * (v * (2 * Real.pi / D)) + y * (-u * (2 * Real.pi / D)) = 2 * Real.pi := by
    intro x y u v D hD h0
    field_simp
    rw [hD]; ring
  refine ⟨⟨?_, ?_, ?_, ?_⟩, ?_⟩
  · exact e1 _ _ _ _ _ rfl hd
  · simp only [dot2]; ring
  · simp only [dot2]; ring
  · simp only [dot2]
    have := e1 a1.1 a1.2 a2.1 a2.2 _ rfl hd
    linarith
  · rintro ⟨p, q⟩ ⟨r, s⟩ h1 h2 h3 h4
    simp only [dot2] at h1 h2 h3 h4
    simp only [Prod.mk.injEq]
    have key : ∀ x y D : ℝ, D ≠ 0 → x * D = y * (2 * Real.pi) → x = y * (2 * Real.pi / D) := by
      intro x y D hD h
      field_simp
      linarith
    refine ⟨⟨key _ _ _ hd ?_, key _ _ _ hd ?_⟩, key _ _ _ hd ?_, key _ _ _ hd ?_⟩
    · linear_combination a2.2 * h1 - a1.2 * h2
    · linear_combination a1.1 * h2 - a2.1 * h1
    · linear_combination a2.2 * h3 - a1.2 * h4
    · linear_combination a1.1 * h4 - a2.1 * h3

/-- **C22.** `reciproc` returns exactly for cells of non-zero area. -/
theorem C22_returns_iff (a1 a2 : R2) : (∃ b, reciproc a1 a2 = .ok b) ↔ unitCellArea a1 a2 ≠ 0 := by
  rw [unitCellArea, ne_eq, abs_eq_zero]
  constructor
  · rintro ⟨b, hb⟩; exact (reciproc_eq_ok.1 hb).1
  · intro h; exact ⟨_, reciproc_eq_ok.2 ⟨h, rfl⟩⟩

/-- **C22.** The g-vectors of `Expansion(pw, lattice)` are the integer combinations `m b1 + n b2` of the
dual basis, order by order: their products with the lattice vectors are `2π m` and `2π n` where
`(m, n)` is the order listed by `generate_expansion_indices` at that position. -/
theorem C22_gvectors {tag : ℕ} {pw : ℕ × ℕ} {lat : R2 × R2} {e : Expansion (pw.1 * pw.2)}
    (h : Expansion.make tag pw lat = .ok e) :
    ∃ l, generateExpansionIndices pw = .ok l ∧ ∀ i : Fin (pw.1 * pw.2), ∃ m n : ℤ,
      l[(i : ℕ)]? = some (m, n) ∧ dot2 lat.1 (e.g i) = 2 * Real.pi * m ∧
      dot2 lat.2 (e.g i) = 2 * Real.pi * n := by
  obtain ⟨h1, h2, ⟨b1, b2⟩, hb, rfl⟩ := make_eq_ok.1 h
  obtain ⟨⟨e11, e12, e21, e22⟩, -⟩ := C22_duality hb
  refine ⟨_, generateExpansionIndices_eq h1 h2, fun i => ⟨(orderAt pw i).1, (orderAt pw i).2, ?_, ?_, ?_⟩⟩
  · simp
  · simp only [dot2, latticeVec] at *
    linear_combination ((orderAt pw i).1 : ℝ) * e11 + ((orderAt pw i).2 : ℝ) * e12
  · simp only [dot2, latticeVec] at *
    linear_combination ((orderAt pw i).1 : ℝ) * e21 + ((orderAt pw i).2 : ℝ) * e22

/-- **C22.** `rotate` preserves all mutual products (hence all lengths) of g-vectors, keeps
orientation, composes additively, undoes itself, and turns each vector by the angle, counterclockwise. -/
theorem C22_rotate {N : ℕ} (e : Expansion N) (a b : ℝ) :
    (∀ i j, dot2 ((e.rotate a).g i) ((e.rotate a).g j) = dot2 (e.g i) (e.g j)) ∧
    (∀ i j, ((e.rotate a).g i).1 * ((e.rotate a).g j).2 - ((e.rotate a).g i).2 * ((e.rotate a).g j).1 =
      (e.g i).1 * (e.g j).2 - (e.g i).2 * (e.g j).1) ∧
    ((e.rotate a).rotate b = e.rotate (a + b) ∧ e.rotate 0 = e) ∧
    ∀ i, dot2 (e.g i) ((e.rotate a).g i) = Real.cos a * dot2 (e.g i) (e.g i) ∧
      (e.g i).1 * ((e.rotate a).g i).2 - (e.g i).2 * ((e.rotate a).g i).1 = Real.sin a * dot2 (e.g i) (e.g i) := by
  have hcs := Real.sin_sq_add_cos_sq a
  refine ⟨fun i j => ?_, fun i j => ?_, ⟨?_, ?_⟩, fun i => ⟨?_, ?_⟩⟩
  · simp only [dot2, Expansion.rotate, rotate2]
    linear_combination ((e.g i).1 * (e.g j).1 + (e.g i).2 * (e.g j).2) * hcs
  · simp only [Expansion.rotate, rotate2]
    linear_combination ((e.g i).1 * (e.g j).2 - (e.g i).2 * (e.g j).1) * hcs
  · simp only [Expansion.rotate, rotate2]
    congr 1
    funext i
    rw [Real.cos_add, Real.sin_add]
    ext <;> simp only <;> ring
  · simp [Expansion.rotate, rotate2]
  · simp only [dot2, Expansion.rotate, rotate2]; ring
  · simp only [dot2, Expansion.rotate, rotate2]; ring

/-- Non-vacuity of C22: the hexagonal lattice of `Crystal(lattice="hexagonal")`. -/
example : ∃ e, Expansion.make 0 (3, 3)
    ((Real.sqrt 3 / 2, 1 / 2), (Real.sqrt 3 / 2, -(1 / 2))) = .ok e := by
  refine ⟨_, make_eq_ok.2 ⟨rfl, rfl, _, reciproc_eq_ok.2 ⟨?_, rfl⟩, rfl⟩⟩
  have : 0 < Real.sqrt 3 := Real.sqrt_pos.2 (by norm_num)
  simp only
  intro h
  nlinarith

/-! ### C25 -/

/-- **C25.** `lhs + rhs` has `M * M` orders; the one at position `i * M + j` is the sum of order `i` of
`lhs` and order `j` of `rhs` (every position is of that form for exactly one pair), and the operands
are remembered. -/
theorem C25_minkowski {M : ℕ} {tag : ℕ} {lhs rhs : Expansion M} {se : SumExpansion M}
    (h : lhs.add tag rhs = .ok se) :
    (∀ k : Fin (M * M), ∃! ij : Fin M × Fin M, (k : ℕ) = ij.1 * M + ij.2) ∧
    (∀ (k : Fin (M * M)) (i j : Fin M), (k : ℕ) = i * M + j →
      se.exp.g k = ((lhs.g i).1 + (rhs.g j).1, (lhs.g i).2 + (rhs.g j).2)) ∧
    se.lhs = lhs ∧ se.rhs = rhs := by
  obtain ⟨-, -, hl, hr, -, hg⟩ := add_eq_ok h
  refine ⟨fun k => ?_, fun k i j hk => ?_, hl, hr⟩
  · have hM : 0 < M := by
      rcases Nat.eq_zero_or_pos M with rfl | h
      · exact (Nat.not_lt_zero _ k.2).elim
      · exact h
    refine ⟨(⟨k / M, Nat.div_lt_of_lt_mul k.2⟩, ⟨k % M, Nat.mod_lt _ hM⟩), ?_, ?_⟩
    · exact (Nat.div_add_mod' _ _).symm
    · rintro ⟨i, j⟩ hij
      simp only at hij
      have e1 : (k : ℕ) / M = i := by
        rw [hij, Nat.mul_comm, Nat.mul_add_div hM, Nat.div_eq_of_lt j.2, Nat.add_zero]
      have e2 : (k : ℕ) % M = j := by
        rw [hij, Nat.mul_comm, Nat.mul_add_mod, Nat.mod_eq_of_lt j.2]
      ext <;> simp [e1, e2]
  · have : k = pairIdx i j := Fin.ext hk
    rw [this, hg]

/-- **C25.** Sums of operands with the same (odd) numbers of orders succeed; operands with different
numbers of orders are rejected. -/
theorem C25_accepts_iff {M M' : ℕ} (tag : ℕ) (lhs : Expansion M) (rhs : Expansion M')
    (h1 : Odd lhs.pw.1) (h2 : Odd lhs.pw.2) :
    (M' = M → ∃ se, lhs.add tag rhs = .ok se) ∧ (M' ≠ M → lhs.add tag rhs = .error .value) := by
  rw [Nat.odd_iff] at h1 h2
  constructor
  · rintro rfl; exact add_ok tag lhs rhs h1 h2
  · intro h
    obtain ⟨b, hb⟩ := default_reciproc
    have := (make_eq_ok (tag := tag) (pw := (lhs.pw.1 ^ 2, lhs.pw.2 ^ 2)) (lat := ((1, 0), (0, 1)))
      (e := _)).2 ⟨by simp [Nat.pow_mod, h1], by simp [Nat.pow_mod, h2], b, hb, rfl⟩
    simp only [Expansion.add, this, ok_bind]
    rw [dif_neg h]; rfl

/-- Expansions as users make them: from a lattice, by rotation, by adding two. -/
inductive Built : ∀ {N : ℕ}, Expansion N → Prop
  | make {tag pw lat} {e : Expansion (pw.1 * pw.2)} : Expansion.make tag pw lat = .ok e → Built e
  | rotate {N} {e : Expansion N} (a : ℝ) : Built e → Built (e.rotate a)
  | add {M tag} {l r : Expansion M} {se : SumExpansion M} : Built l → Built r →
      l.add tag r = .ok se → Built se.exp

/-- **C25 / C17.** In every expansion a user can build — rotated, twisted sums included — the number
of orders is odd and the middle one is `G = 0`. -/
theorem C25_specular_middle {N : ℕ} {e : Expansion N} (h : Built e) :
    Odd N ∧ ∀ i : Fin N, 2 * (i : ℕ) + 1 = N → e.g i = (0, 0) := by
  have : Centered e := by
    induction h with
    | make h => exact centered_make h
    | rotate a _ ih => exact centered_rotate ih a
    | add _ _ h ihl ihr => exact centered_add h ihl ihr
  exact ⟨Nat.odd_iff.2 this.1, fun i hi => this.2 i (by omega)⟩

/-- Non-vacuity of C25: a 3×3 square expansion twisted by an angle and added to itself. -/
theorem twisted_example (a : ℝ) : ∃ (e : Expansion 9) (se : SumExpansion 9),
    Built e ∧ (e.rotate a).add 1 (e.rotate (-a)) = .ok se ∧ Built se.exp := by
  obtain ⟨b, hb⟩ := default_reciproc
  have h := (make_eq_ok (tag := 0) (pw := (3, 3)) (lat := ((1, 0), (0, 1))) (e := _)).2
    ⟨rfl, rfl, b, hb, rfl⟩
  obtain ⟨e, he⟩ : ∃ e, Expansion.make 0 (3, 3) ((1, 0), (0, 1)) = .ok e := ⟨_, h⟩
  have hpw : e.pw = (3, 3) := by
    obtain ⟨-, -, b, -, rfl⟩ := make_eq_ok.1 he
    rfl
  obtain ⟨se, hse⟩ := add_ok 1 (e.rotate a) (e.rotate (-a))
    (show e.pw.1 % 2 = 1 by simp [hpw]) (show e.pw.2 % 2 = 1 by simp [hpw])
  exact ⟨e, se, Built.make he, hse, Built.add (Built.rotate a (Built.make he))
    (Built.rotate (-a) (Built.make he)) hse⟩

/-! ### C17 -/

/-- **C17.** The incident vector excites only the `G = 0` order of the expansion, whatever the wave
vector and polarisation, for every expansion a user can build. -/
theorem C17_only_specular {N : ℕ} {e : Expansion N} (he : Built e) {te tm : ℂ} {k : C3} {v : Vec2 N}
    (h : incident N te tm k = .ok v) (i : Fin N) (hi : e.g i ≠ (0, 0)) :
    v (.inl i) = 0 ∧ v (.inr i) = 0 := by
  obtain ⟨hodd, hc⟩ := C25_specular_middle he
  obtain ⟨-, -, aTE, aTM, -, rfl⟩ := incident_eq_ok.1 h
  have : ¬ (i : ℕ) = (N - 1) / 2 := fun h => hi (hc i (by
    rw [Nat.odd_iff] at hodd; omega))
  simp [this]

theorem norm_sq_add {z w : ℂ} {r s : ℝ} :
    ‖z * (r : ℂ) + w * (s : ℂ)‖ ^ 2 =
      ‖z‖ ^ 2 * r ^ 2 + ‖w‖ ^ 2 * s ^ 2 + 2 * r * s * (z * star w).re := by
  rw [Complex.sq_norm, Complex.sq_norm, Complex.sq_norm, Complex.normSq_apply, Complex.normSq_apply,
    Complex.normSq_apply]
  simp
  ring

theorem polNorm_div_sq {te tm : ℂ} (h : polNorm te tm ≠ 0) :
    ‖te / polNorm te tm‖ ^ 2 + ‖tm / polNorm te tm‖ ^ 2 = 1 := by
  rw [norm_div, norm_div, div_pow, div_pow, Complex.norm_real, Real.norm_eq_abs, sq_abs, polNorm_sq]
  rw [← polNorm_sq]
  have h2 : polNorm te tm ^ 2 ≠ 0 := pow_ne_zero 2 h
  rw [← add_div, ← polNorm_sq, div_self h2]

/-- **C17** (for wave vectors at normal incidence or with in-plane length at least `1e-8`; the window
in between is treated by `C17_cutoff_bound` and `C17_cutoff_counterexample`).  The amplitudes of the
specular order are the tangential components of a vector of unit length orthogonal to `k`. -/
theorem C17_unit_transverse_partial {N : ℕ} {te tm : ℂ} {a b c : ℝ} (hc : c ≠ 0) {v : Vec2 N}
    (hk : (a = 0 ∧ b = 0) ∨ (1 / 10 ^ 8) ^ 2 ≤ a ^ 2 + b ^ 2)
    (h : incident N te tm ⟨a, b, c⟩ = .ok v) (i : Fin N) (hi : (i : ℕ) = (N - 1) / 2) :
    ∃ p : C3, v (.inl i) = p.x ∧ v (.inr i) = p.y ∧ a * p.x + b * p.y + c * p.z = 0 ∧
      ‖p.x‖ ^ 2 + ‖p.y‖ ^ 2 + ‖p.z‖ ^ 2 = 1 := by
  obtain ⟨-, hp, aTE, aTM, hpol, rfl⟩ := incident_eq_ok.1 h
  have hn := polNorm_div_sq hp
  set t := te / (polNorm te tm : ℂ)
  set m := tm / (polNorm te tm : ℂ)
  simp only [Sum.elim_inl, Sum.elim_inr, hi, if_true, one_mul]
  rcases hk with ⟨rfl, rfl⟩ | hk
  · rw [polarisations_small (by simp)] at hpol
    simp only [Except.ok.injEq, Prod.mk.injEq] at hpol
    obtain ⟨rfl, rfl⟩ := hpol
    refine ⟨⟨t, m, 0⟩, by simp, by simp, by simp, ?_⟩
    simpa using hn
  · have hs0 : (1 / 10 ^ 8 : ℝ) ≤ Real.sqrt (a ^ 2 + b ^ 2) := Real.le_sqrt_of_sq_le hk
    have hs2 : Real.sqrt (a ^ 2 + b ^ 2) ^ 2 = a ^ 2 + b ^ 2 := Real.sq_sqrt (by positivity)
    set s := Real.sqrt (a ^ 2 + b ^ 2)
    have hs1 : 0 < s := lt_of_lt_of_le (by positivity) hs0
    have hK2 : Real.sqrt (s ^ 2 + c ^ 2) ^ 2 = s ^ 2 + c ^ 2 := Real.sq_sqrt (by positivity)
    have hK0 : 0 < Real.sqrt (s ^ 2 + c ^ 2) := Real.sqrt_pos.2 (by positivity)
    set K := Real.sqrt (s ^ 2 + c ^ 2)
    rw [polarisations_large hs2 hs0 hK2 hK0] at hpol
    simp only [Except.ok.injEq, Prod.mk.injEq] at hpol
    obtain ⟨rfl, rfl⟩ := hpol
    refine ⟨⟨t * ((-b / s : ℝ) : ℂ) + m * ((a * c / (s * K) : ℝ) : ℂ),
      t * ((a / s : ℝ) : ℂ) + m * ((b * c / (s * K) : ℝ) : ℂ), m * ((-s / K : ℝ) : ℂ)⟩,
      rfl, rfl, ?_, ?_⟩
    · have h1 : (s : ℂ) ≠ 0 := by exact_mod_cast hs1.ne'
      have h2 : (K : ℂ) ≠ 0 := by exact_mod_cast hK0.ne'
      have h3 : (s : ℂ) ^ 2 = (a : ℂ) ^ 2 + (b : ℂ) ^ 2 := by exact_mod_cast hs2
      push_cast
      field_simp
      linear_combination (-m * c) * h3
    · simp only
      rw [norm_sq_add, norm_sq_add, norm_mul, mul_pow, Complex.norm_real, Real.norm_eq_abs, sq_abs]
      have hs' := hs1.ne'
      have hK' := hK0.ne'
      have e1 : (-b / s) ^ 2 + (a / s) ^ 2 = 1 := by
        field_simp; rw [hs2]; ring
      have e2 : (a * c / (s * K)) ^ 2 + (b * c / (s * K)) ^ 2 + (-s / K) ^ 2 = 1 := by
        field_simp; rw [hK2]; linear_combination (-c ^ 2) * hs2
      have e3 : (-b / s) * (a * c / (s * K)) + (a / s) * (b * c / (s * K)) = 0 := by
        field_simp; ring
      linear_combination hn + ‖t‖ ^ 2 * e1 + ‖m‖ ^ 2 * e2 + 2 * (t * star m).re * e3

/-- **C17.** `te` and `tm` excitations are orthogonal (as 3-vectors transverse to `k`). -/
theorem C17_te_tm_orthogonal {N : ℕ} {a b c : ℝ} (hc : c ≠ 0) {v w : Vec2 N}
    (hk : (a = 0 ∧ b = 0) ∨ (1 / 10 ^ 8) ^ 2 ≤ a ^ 2 + b ^ 2)
    (hv : incident N 1 0 ⟨a, b, c⟩ = .ok v) (hw : incident N 0 1 ⟨a, b, c⟩ = .ok w)
    (i : Fin N) (hi : (i : ℕ) = (N - 1) / 2) (p q : C3)
    (hp : v (.inl i) = p.x ∧ v (.inr i) = p.y ∧ a * p.x + b * p.y + c * p.z = 0)
    (hq : w (.inl i) = q.x ∧ w (.inr i) = q.y ∧ a * q.x + b * q.y + c * q.z = 0) :
    p.x * star q.x + p.y * star q.y + p.z * star q.z = 0 := by
  obtain ⟨-, -, aTE, aTM, hpol, rfl⟩ := incident_eq_ok.1 hv
  obtain ⟨-, -, aTE', aTM', hpol', rfl⟩ := incident_eq_ok.1 hw
  rw [hpol, Except.ok.injEq, Prod.mk.injEq] at hpol'
  obtain ⟨rfl, rfl⟩ := hpol'
  have hc' : (c : ℂ) ≠ 0 := by exact_mod_cast hc
  simp [hi, polNorm] at hp hq
  obtain ⟨px, py, pz⟩ := p
  obtain ⟨qx, qy, qz⟩ := q
  simp only at hp hq ⊢
  obtain ⟨rfl, rfl, hp⟩ := hp
  obtain ⟨rfl, rfl, hq⟩ := hq
  rcases hk with ⟨rfl, rfl⟩ | hk
  · rw [polarisations_small (by simp)] at hpol
    simp only [Except.ok.injEq, Prod.mk.injEq] at hpol
    obtain ⟨rfl, rfl⟩ := hpol
    simp [hc'] at hp hq
    simp [hp]
  · have hs0 : (1 / 10 ^ 8 : ℝ) ≤ Real.sqrt (a ^ 2 + b ^ 2) := Real.le_sqrt_of_sq_le hk
    have hs2 : Real.sqrt (a ^ 2 + b ^ 2) ^ 2 = a ^ 2 + b ^ 2 := Real.sq_sqrt (by positivity)
    set s := Real.sqrt (a ^ 2 + b ^ 2)
    have hs1 : 0 < s := lt_of_lt_of_le (by positivity) hs0
    have hK2 : Real.sqrt (s ^ 2 + c ^ 2) ^ 2 = s ^ 2 + c ^ 2 := Real.sq_sqrt (by positivity)
    have hK0 : 0 < Real.sqrt (s ^ 2 + c ^ 2) := Real.sqrt_pos.2 (by positivity)
    set K := Real.sqrt (s ^ 2 + c ^ 2)
    rw [polarisations_large hs2 hs0 hK2 hK0] at hpol
    simp only [Except.ok.injEq, Prod.mk.injEq] at hpol
    obtain ⟨rfl, rfl⟩ := hpol
    have h1 : (s : ℂ) ≠ 0 := by exact_mod_cast hs1.ne'
    have h2 : (K : ℂ) ≠ 0 := by exact_mod_cast hK0.ne'
    have hz : pz = 0 := by
      have : (c : ℂ) * pz = 0 := by
        rw [← hp]; push_cast; field_simp; ring
      exact (mul_eq_zero.1 this).resolve_left hc'
    rw [hz]
    simp only [Complex.star_def, Complex.conj_ofReal]
    push_cast
    field_simp
    ring

/-- **C17.** `incident` returns a vector for every real `k`, every non-zero `(te, tm)` and every
non-empty expansion. -/
theorem C17_returns {N : ℕ} (hN : 0 < N) {te tm : ℂ} (hp : (te, tm) ≠ (0, 0)) (a b c : ℝ) :
    ∃ v, incident N te tm ⟨a, b, c⟩ = .ok v := by
  have hn : polNorm te tm ≠ 0 := by
    intro h0
    have h1 := polNorm_sq te tm
    rw [h0] at h1
    have hte : ‖te‖ = 0 := by nlinarith [norm_nonneg te, norm_nonneg tm, sq_nonneg ‖te‖, sq_nonneg ‖tm‖]
    have htm : ‖tm‖ = 0 := by nlinarith [norm_nonneg te, norm_nonneg tm, sq_nonneg ‖te‖, sq_nonneg ‖tm‖]
    exact hp (by rw [norm_eq_zero.1 hte, norm_eq_zero.1 htm])
  have hs2 : Real.sqrt (a ^ 2 + b ^ 2) ^ 2 = a ^ 2 + b ^ 2 := Real.sq_sqrt (by positivity)
  rcases lt_or_ge (Real.sqrt (a ^ 2 + b ^ 2)) (1 / 10 ^ 8) with h | h
  · exact ⟨_, incident_eq_ok.2 ⟨hN, hn, _, _, polarisations_small (by simpa using h), rfl⟩⟩
  · have hs1 : 0 < Real.sqrt (a ^ 2 + b ^ 2) := lt_of_lt_of_le (by positivity) h
    exact ⟨_, incident_eq_ok.2 ⟨hN, hn, _, _, polarisations_large hs2 h
      (K := Real.sqrt (Real.sqrt (a ^ 2 + b ^ 2) ^ 2 + c ^ 2)) (Real.sq_sqrt (by positivity))
      (Real.sqrt_pos.2 (by positivity)), rfl⟩⟩

/-- **C17**, the cut-off window `0 < |k_parallel| < 1e-8`: the returned amplitudes have unit tangential
norm, so the transverse completion is longer than one by at most `(1e-8 / k_z)²`. -/
theorem C17_cutoff_bound {N : ℕ} {te tm : ℂ} {a b c : ℝ} (hc : c ≠ 0) {v : Vec2 N}
    (hk : a ^ 2 + b ^ 2 < (1 / 10 ^ 8) ^ 2)
    (h : incident N te tm ⟨a, b, c⟩ = .ok v) (i : Fin N) (hi : (i : ℕ) = (N - 1) / 2) (p : C3)
    (hpx : v (.inl i) = p.x) (hpy : v (.inr i) = p.y) (hpz : a * p.x + b * p.y + c * p.z = 0) :
    1 ≤ ‖p.x‖ ^ 2 + ‖p.y‖ ^ 2 + ‖p.z‖ ^ 2 ∧
      ‖p.x‖ ^ 2 + ‖p.y‖ ^ 2 + ‖p.z‖ ^ 2 ≤ 1 + (1 / 10 ^ 8 / c) ^ 2 := by
  obtain ⟨-, hp, aTE, aTM, hpol, rfl⟩ := incident_eq_ok.1 h
  have hn := polNorm_div_sq hp
  have hlt : Real.sqrt (‖(a : ℂ)‖ ^ 2 + ‖(b : ℂ)‖ ^ 2) < 1 / 10 ^ 8 := by
    simp only [Complex.norm_real, Real.norm_eq_abs, sq_abs]
    exact (Real.sqrt_lt' (by positivity)).2 hk
  rw [polarisations_small hlt] at hpol
  simp only [Except.ok.injEq, Prod.mk.injEq] at hpol
  obtain ⟨rfl, rfl⟩ := hpol
  simp [hi] at hpx hpy
  rw [hpx, hpy] at hn
  refine ⟨by rw [hn]; have := sq_nonneg ‖p.z‖; linarith, ?_⟩
  rw [hn]
  have hz : ‖p.z‖ ^ 2 * c ^ 2 ≤ a ^ 2 + b ^ 2 := by
    have e1 : (c : ℂ) * p.z = -(a * p.x + b * p.y) := by linear_combination hpz
    have e2 : ‖p.z‖ ^ 2 * c ^ 2 = ‖(a : ℂ) * p.x + b * p.y‖ ^ 2 := by
      have := congrArg norm e1
      rw [norm_neg, norm_mul, Complex.norm_real, Real.norm_eq_abs] at this
      rw [← this, mul_pow, sq_abs]; ring
    rw [e2]
    have e3 : ‖(a : ℂ) * p.x + b * p.y‖ ≤ |a| * ‖p.x‖ + |b| * ‖p.y‖ := by
      refine (norm_add_le _ _).trans ?_
      rw [norm_mul, norm_mul, Complex.norm_real, Complex.norm_real, Real.norm_eq_abs, Real.norm_eq_abs]
    have e4 : ‖(a : ℂ) * p.x + b * p.y‖ ^ 2 ≤ (|a| * ‖p.x‖ + |b| * ‖p.y‖) ^ 2 :=
      pow_le_pow_left₀ (norm_nonneg _) e3 2
    have e5 : (|a| * ‖p.x‖ + |b| * ‖p.y‖) ^ 2 ≤ (a ^ 2 + b ^ 2) * (‖p.x‖ ^ 2 + ‖p.y‖ ^ 2) := by
      rw [← sq_abs a, ← sq_abs b]
      nlinarith [sq_nonneg (|a| * ‖p.y‖ - |b| * ‖p.x‖)]
    rw [hn, mul_one] at e5
    exact e4.trans e5
  have hc2 : 0 < c ^ 2 := by positivity
  have : ‖p.z‖ ^ 2 ≤ (1 / 10 ^ 8 / c) ^ 2 := by
    rw [div_pow, le_div_iff₀ hc2]
    exact hz.trans hk.le
  linarith

/-- **C17** is not exact inside the cut-off window: for `k = (1e-9, 0, 1)` and `te = 1` the plane wave
with the returned tangential amplitudes does not have unit length. -/
theorem C17_cutoff_counterexample : ∃ v : Vec2 1,
    incident 1 1 0 ⟨((1 / 10 ^ 9 : ℝ) : ℂ), ((0 : ℝ) : ℂ), ((1 : ℝ) : ℂ)⟩ = .ok v ∧
    ¬ ∃ p : C3, v (.inl 0) = p.x ∧ v (.inr 0) = p.y ∧
      ((1 / 10 ^ 9 : ℝ) : ℂ) * p.x + ((0 : ℝ) : ℂ) * p.y + ((1 : ℝ) : ℂ) * p.z = 0 ∧
      ‖p.x‖ ^ 2 + ‖p.y‖ ^ 2 + ‖p.z‖ ^ 2 = 1 := by
  obtain ⟨v, hv⟩ := C17_returns (N := 1) one_pos (te := 1) (tm := 0) (by simp) (1 / 10 ^ 9) 0 1
  refine ⟨v, hv, ?_⟩
  rintro ⟨p, hx, hy, hz, hn⟩
  obtain ⟨-, -, aTE, aTM, hpol, rfl⟩ := incident_eq_ok.1 hv
  rw [polarisations_small (by
    simp only [Complex.norm_real, Real.norm_eq_abs, sq_abs]
    rw [Real.sqrt_lt' (by positivity)]; norm_num)] at hpol
  simp only [Except.ok.injEq, Prod.mk.injEq] at hpol
  obtain ⟨rfl, rfl⟩ := hpol
  simp [polNorm] at hx hy
  rw [← hx, ← hy] at hz hn
  simp at hz hn
  rw [hn] at hz
  norm_num at hz

example : ∃ v, incident 9 1 0 ⟨((3 : ℝ) : ℂ), ((4 : ℝ) : ℂ), ((1 : ℝ) : ℂ)⟩ = .ok v :=
  C17_returns (by norm_num) (by simp) 3 4 1

end Khepri
