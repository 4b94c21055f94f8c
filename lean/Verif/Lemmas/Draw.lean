import Verif.Spec.Draw
import Verif.Lemmas.Py

/-!
Painting.
-/

set_option linter.unusedSectionVars false

namespace Khepri

namespace Drawing
variable {nx ny : ℕ}

theorem linspaceAt_half {n i : ℕ} (h : i < n) : linspaceAt (-0.5) 0.5 n i = -(1 / 2) + (i : ℝ) / (n - 1) := by
  unfold linspaceAt
  split_ifs with h1
  · have : i = 0 := by omega
    subst this
    norm_num
  · ring

theorem pixel (d : Drawing nx ny) (i : Fin nx) (j : Fin ny) :
    pixelAt d.lattice nx ny i j = (d.X i j, d.Y i j) := by
  simp only [pixelAt, X, Y, linspaceAt_half i.2, linspaceAt_half j.2]
  ext <;> simp only <;> ring

theorem paint_eq_ok {d d' : Drawing nx ny} {mask : Fin nx → Fin ny → Prop} {eps : PyNum} :
    d.paint mask eps = .ok d' ↔ (eps.isComplex = true → d.cplx = true) ∧
      d' = { d with canvas := fun i j => open Classical in if mask i j then eps.val else d.canvas i j } := by
  simp only [paint, bind_eq_ok, pyCheck_eq_ok]
  constructor
  · rintro ⟨_, h1, h2⟩
    simp only [pure, Except.pure, Except.ok.injEq] at h2
    exact ⟨h1, h2.symm⟩
  · rintro ⟨h1, h2⟩
    exact ⟨(), h1, by rw [h2]; rfl⟩

end Drawing

/-- What a successful call does. -/
structure Draws {nx ny : ℕ} (op : DrawOp) (d d' : Drawing nx ny) : Prop where
  lattice : d'.lattice = d.lattice
  background : d'.background = d.background
  cplx : d'.cplx = d.cplx
  inside : op.Fits d.lattice → ∀ (i : Fin nx) (j : Fin ny), op.Covers (pixelAt d.lattice nx ny i j) →
    d'.canvas i j = op.eps.val
  outside : op.Fits d.lattice → ∀ (i : Fin nx) (j : Fin ny), ¬ op.Covers (pixelAt d.lattice nx ny i j) →
    d'.canvas i j = d.canvas i j

section
variable {nx ny : ℕ}

theorem Draws.of_paint {op : DrawOp} {d d1 d' : Drawing nx ny} {mask : Fin nx → Fin ny → Prop}
    (h : d.paint mask op.eps = .ok d1) (h1 : d'.lattice = d1.lattice) (h2 : d'.background = d1.background)
    (h3 : d'.cplx = d1.cplx) (h4 : d'.canvas = d1.canvas)
    (hm : ∀ i j, mask i j ↔ op.Covers (d.X i j, d.Y i j)) : Draws op d d' := by
  obtain ⟨-, rfl⟩ := Drawing.paint_eq_ok.1 h
  refine ⟨h1, h2, h3, fun _ i j hc => ?_, fun _ i j hc => ?_⟩
  · rw [d.pixel, ← hm] at hc
    rw [h4]; simp [hc]
  · rw [d.pixel, ← hm] at hc
    rw [h4]; simp [hc]

theorem disc_mask {q r : ℝ} (hq : 0 ≤ q) : Real.sqrt q < r ↔ 0 ≤ r ∧ q < r ^ 2 := by
  constructor
  · intro h
    have hr : 0 < r := lt_of_le_of_lt (Real.sqrt_nonneg _) h
    exact ⟨hr.le, (Real.sqrt_lt' hr).1 h⟩
  · rintro ⟨h0, h⟩
    have hr : 0 < r := lt_of_le_of_ne h0 (by rintro rfl; nlinarith)
    exact (Real.sqrt_lt' hr).2 h

theorem rectangle_mask {x c w : ℝ} : (x ≥ c - w / 2 ∧ x ≤ c - w / 2 + w) ↔ |x - c| ≤ w / 2 := by
  rw [abs_le]
  constructor
  · rintro ⟨h1, h2⟩; constructor <;> linarith
  · rintro ⟨h1, h2⟩; constructor <;> linarith

theorem ellipse_mask {u v a b r : ℝ} (ha : a ≠ 0) (hb : b ≠ 0) :
    u ^ 2 + v ^ 2 < 1 / ((Real.cos r ^ 2 / a ^ 2 + Real.sin r ^ 2 / b ^ 2) * Real.cos (Complex.arg ⟨u, v⟩) ^ 2 +
      (Real.cos r ^ 2 / b ^ 2 + Real.sin r ^ 2 / a ^ 2) * Real.sin (Complex.arg ⟨u, v⟩) ^ 2 +
      2 * Real.cos r * Real.sin r * (1 / a ^ 2 - 1 / b ^ 2) * Real.sin (Complex.arg ⟨u, v⟩) *
        Real.cos (Complex.arg ⟨u, v⟩)) ↔
    ((u * Real.cos r + v * Real.sin r) / a) ^ 2 + ((-u * Real.sin r + v * Real.cos r) / b) ^ 2 < 1 := by
  set θ := Complex.arg ⟨u, v⟩ with hθ
  have hform : (Real.cos r ^ 2 / a ^ 2 + Real.sin r ^ 2 / b ^ 2) * Real.cos θ ^ 2 +
      (Real.cos r ^ 2 / b ^ 2 + Real.sin r ^ 2 / a ^ 2) * Real.sin θ ^ 2 +
      2 * Real.cos r * Real.sin r * (1 / a ^ 2 - 1 / b ^ 2) * Real.sin θ * Real.cos θ =
      ((Real.cos θ * Real.cos r + Real.sin θ * Real.sin r) / a) ^ 2 +
        ((-Real.cos θ * Real.sin r + Real.sin θ * Real.cos r) / b) ^ 2 := by
    field_simp; ring
  rw [hform]
  set I := ((Real.cos θ * Real.cos r + Real.sin θ * Real.sin r) / a) ^ 2 +
        ((-Real.cos θ * Real.sin r + Real.sin θ * Real.cos r) / b) ^ 2 with hI
  have hpos : 0 < I := by
    have h0 : 0 ≤ I := by positivity
    refine lt_of_le_of_ne h0 fun h => ?_
    have e1 : (Real.cos θ * Real.cos r + Real.sin θ * Real.sin r) / a = 0 := by
      by_contra hne
      have : 0 < ((Real.cos θ * Real.cos r + Real.sin θ * Real.sin r) / a) ^ 2 := by positivity
      have : 0 ≤ ((-Real.cos θ * Real.sin r + Real.sin θ * Real.cos r) / b) ^ 2 := by positivity
      linarith
    have e2 : (-Real.cos θ * Real.sin r + Real.sin θ * Real.cos r) / b = 0 := by
      rw [e1] at hI
      have : ((-Real.cos θ * Real.sin r + Real.sin θ * Real.cos r) / b) ^ 2 = 0 := by linarith
      simpa using this
    have e1' : Real.cos θ * Real.cos r + Real.sin θ * Real.sin r = 0 := by simpa [ha] using e1
    have e2' : -Real.cos θ * Real.sin r + Real.sin θ * Real.cos r = 0 := by simpa [hb] using e2
    have t1 := Real.sin_sq_add_cos_sq θ
    have t2 := Real.sin_sq_add_cos_sq r
    have : (Real.cos θ * Real.cos r + Real.sin θ * Real.sin r) ^ 2 +
        (-Real.cos θ * Real.sin r + Real.sin θ * Real.cos r) ^ 2 = 1 := by
      linear_combination (Real.cos r ^ 2 + Real.sin r ^ 2) * t1 + t2
    rw [e1', e2'] at this
    norm_num at this
  rw [lt_div_iff₀ hpos]
  have hn : u ^ 2 + v ^ 2 = ‖(⟨u, v⟩ : ℂ)‖ ^ 2 := by
    rw [Complex.sq_norm, Complex.normSq_mk]; ring
  have hc : ‖(⟨u, v⟩ : ℂ)‖ * Real.cos θ = u := by rw [hθ, Complex.norm_mul_cos_arg]
  have hs : ‖(⟨u, v⟩ : ℂ)‖ * Real.sin θ = v := by rw [hθ, Complex.norm_mul_sin_arg]
  have : (u ^ 2 + v ^ 2) * I =
      ((u * Real.cos r + v * Real.sin r) / a) ^ 2 + ((-u * Real.sin r + v * Real.cos r) / b) ^ 2 := by
    rw [hn, hI]
    have aux : ∀ n c s : ℝ, n * c = u → n * s = v →
        n ^ 2 * (((c * Real.cos r + s * Real.sin r) / a) ^ 2 + ((-c * Real.sin r + s * Real.cos r) / b) ^ 2) =
        ((u * Real.cos r + v * Real.sin r) / a) ^ 2 + ((-u * Real.sin r + v * Real.cos r) / b) ^ 2 := by
      intro n c s h1 h2
      rw [← h1, ← h2]; ring
    exact aux _ _ _ hc hs
  rw [this]

theorem parallelogramLoop_draws {x y b h t : ℝ} {eps : PyNum} (cols : List (Fin ny)) (hs : cols.Pairwise (· < ·)) :
    ∀ {d d' : Drawing nx ny}, Drawing.parallelogramLoop x y b h t eps cols d = .ok d' →
      d'.lattice = d.lattice ∧ d'.background = d.background ∧ d'.cplx = d.cplx ∧ d'.islands = d.islands ∧
      (d.lattice.1.2 = 0 → 0 < d.lattice.2.2 → ∀ i j,
        (j ∈ cols → (y < d.Y i j ∧ d.Y i j < y + h) →
          (x - b / 2 + t * d.Y i j < d.X i j ∧ d.X i j ≤ x - b / 2 + t * d.Y i j + b) → d'.canvas i j = eps.val) ∧
        (¬ (j ∈ cols ∧ (y < d.Y i j ∧ d.Y i j < y + h) ∧
          (x - b / 2 + t * d.Y i j < d.X i j ∧ d.X i j ≤ x - b / 2 + t * d.Y i j + b)) →
          d'.canvas i j = d.canvas i j)) := by
  induction cols with
  | nil =>
    intro d d' hd
    simp only [Drawing.parallelogramLoop, Except.ok.injEq] at hd
    subst hd
    refine ⟨rfl, rfl, rfl, rfl, fun _ _ i j => ⟨by simp, fun _ => rfl⟩⟩
  | cons c rest ih =>
    intro d d' hd
    rw [List.pairwise_cons] at hs
    obtain ⟨hlt, hs'⟩ := hs
    rw [Drawing.parallelogramLoop] at hd
    have hY : d.lattice.1.2 = 0 → ∀ (i k : Fin nx) (j : Fin ny), d.Y i j = d.Y k j := by
      intro h0 i k j
      simp only [Drawing.Y, h0, zero_mul]
    split_ifs at hd with h1 h2 h3
    · obtain ⟨e1, e2, e3, e4, e5⟩ := ih hs' hd
      refine ⟨e1, e2, e3, e4, fun l1 l2 i j => ⟨fun hj hy hx => ?_, fun hn => ?_⟩⟩
      · rcases List.mem_cons.1 hj with rfl | hj
        · exact absurd hy.1 (not_lt.2 (h1 i))
        · exact (e5 l1 l2 i j).1 hj hy hx
      · exact (e5 l1 l2 i j).2 fun ⟨a1, a2⟩ => hn ⟨List.mem_cons_of_mem _ a1, a2⟩
    · simp only [Except.ok.injEq] at hd
      subst hd
      refine ⟨rfl, rfl, rfl, rfl, fun l1 l2 i j => ⟨fun hj hy hx => ?_, fun _ => rfl⟩⟩
      exfalso
      have hc := h2 i
      have hle : d.Y i c ≤ d.Y i j := by
        have : c ≤ j := by
          rcases List.mem_cons.1 hj with rfl | hj
          · exact le_rfl
          · exact (hlt j hj).le
        simp only [Drawing.Y, l1, zero_mul, zero_add]
        refine mul_le_mul_of_nonneg_left ?_ l2.le
        rw [Drawing.linspaceAt_half c.2, Drawing.linspaceAt_half j.2]
        have : (c : ℝ) ≤ j := by exact_mod_cast this
        have hny : (0 : ℝ) ≤ ny - 1 := by
          have : 1 ≤ ny := by have := j.2; omega
          have : (1 : ℝ) ≤ ny := by exact_mod_cast this
          linarith
        gcongr
      linarith [hy.2]
    · simp only [bind_eq_ok] at hd
      obtain ⟨d1, hp, hd⟩ := hd
      obtain ⟨-, rfl⟩ := Drawing.paint_eq_ok.1 hp
      obtain ⟨e1, e2, e3, e4, e5⟩ := ih hs' hd
      refine ⟨e1, e2, e3, e4, fun l1 l2 i j => ⟨fun hj hy hx => ?_, fun hn => ?_⟩⟩
      · rcases List.mem_cons.1 hj with rfl | hj
        · rw [(e5 l1 l2 i j).2 (fun ⟨a1, _⟩ => absurd (hlt j a1) (lt_irrefl _))]
          simp only
          rw [if_pos]
          rw [hY l1 _ i]
          simpa using hx
        · exact (e5 l1 l2 i j).1 hj hy hx
      · rw [(e5 l1 l2 i j).2 (fun ⟨a1, a2⟩ => hn ⟨List.mem_cons_of_mem _ a1, a2⟩)]
        simp only
        rw [if_neg]
        rintro ⟨rfl, hx⟩
        rw [hY l1 _ i] at hx
        refine hn ⟨List.mem_cons_self, ⟨?_, ?_⟩, hx⟩
        · push Not at h1
          obtain ⟨k, hk⟩ := h1
          rwa [hY l1 i k]
        · push Not at h2
          obtain ⟨k, hk⟩ := h2
          rw [hY l1 i k]
          linarith

theorem DrawOp.call_draws {op : DrawOp} {d d' : Drawing nx ny} (h : op.call d = .ok d') : Draws op d d' := by
  cases op with
  | disc xy r e =>
    simp only [DrawOp.call, Drawing.disc, bind_eq_ok] at h
    obtain ⟨d1, h1, h2⟩ := h
    simp only [pure, Except.pure, Except.ok.injEq] at h2
    subst h2
    refine Draws.of_paint (op := .disc xy r e) h1 rfl rfl rfl rfl fun i j => ?_
    exact disc_mask (by positivity)
  | rectangle xy wh e =>
    simp only [DrawOp.call, Drawing.rectangle, bind_eq_ok] at h
    obtain ⟨d1, h1, h2⟩ := h
    simp only [pure, Except.pure, Except.ok.injEq] at h2
    subst h2
    refine Draws.of_paint (op := .rectangle xy wh e) h1 rfl rfl rfl rfl fun i j => ?_
    exact and_congr rectangle_mask rectangle_mask
  | ellipse xy ab r e =>
    simp only [DrawOp.call, Drawing.ellipse, bind_eq_ok, pyCheck_eq_ok] at h
    obtain ⟨_, ⟨ha, hb⟩, d1, h1, h2⟩ := h
    simp only [pure, Except.pure, Except.ok.injEq] at h2
    subst h2
    refine Draws.of_paint (op := .ellipse xy ab r e) h1 rfl rfl rfl rfl fun i j => ?_
    exact ellipse_mask ha hb
  | parallelogram xy bh t e =>
    simp only [DrawOp.call, Drawing.parallelogram, bind_eq_ok, pyCheck_eq_ok] at h
    obtain ⟨_, ht, h⟩ := h
    obtain ⟨e1, e2, e3, -, e5⟩ := parallelogramLoop_draws _ (List.pairwise_lt_finRange ny) h
    have key : ∀ (i : Fin nx) (j : Fin ny), (DrawOp.parallelogram xy bh t e).Covers (pixelAt d.lattice nx ny i j) ↔
        (xy.2 - bh.2 / 2 < d.Y i j ∧ d.Y i j < xy.2 - bh.2 / 2 + bh.2) ∧
        (xy.1 - bh.1 / 2 + Real.tan t * d.Y i j < d.X i j ∧
          d.X i j ≤ xy.1 - bh.1 / 2 + Real.tan t * d.Y i j + bh.1) := by
      intro i j
      rw [d.pixel]
      simp only [DrawOp.Covers, abs_lt]
      constructor
      · rintro ⟨⟨a1, a2⟩, a3, a4⟩
        refine ⟨⟨?_, ?_⟩, ?_, ?_⟩ <;> linarith
      · rintro ⟨⟨a1, a2⟩, a3, a4⟩
        refine ⟨⟨?_, ?_⟩, ?_, ?_⟩ <;> linarith
    refine ⟨e1, e2, e3, fun hf i j hc => ?_, fun hf i j hc => ?_⟩
    · rw [key] at hc
      exact (e5 hf.1 hf.2 i j).1 (List.mem_finRange j) hc.1 hc.2
    · rw [key] at hc
      exact (e5 hf.1 hf.2 i j).2 fun h => hc h.2

end

end Khepri
