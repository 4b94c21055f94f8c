import Verif.Props.TmatPhysics
import Verif.Props.Expansion

/-!
# C81: what the names of the polarisations mean

`te`, `tm` of the crystal interface and `s_pol`, `p_pol` of the T-matrix one.
-/

namespace Khepri

open Matrix Complex

section Tmat
variable {l : TLattice} {wl : ℝ} {a b : ℝ} {eps : PyNum} {V : Matrix (TIdx l.shape) (TIdx l.shape) ℂ}

/-- **C81.** In the T-matrix interface, the electric field of an order without `p` amplitudes is perpendicular to its
plane of incidence, and has the length of the amplitude when the wave goes one way. -/
theorem C81_tmat_s (hV : l.V eps wl (↑a, ↑b) = .ok V) {k : Fin (l.shape.1 * l.shape.2)}
    (hc : l.wave (↑a, ↑b) k = 0 ∨ 1 / 2 ^ 52 ≤ ‖(l.wave (↑a, ↑b) k).1‖ ^ 2 + ‖(l.wave (↑a, ↑b) k).2‖ ^ 2)
    {p : TIdx l.shape → ℂ} (h1 : p (.inl (.inr k)) = 0) (h2 : p (.inr (.inr k)) = 0) :
    (l.wave (↑a, ↑b) k).1 * (V *ᵥ p) (.inl (.inl k)) + (l.wave (↑a, ↑b) k).2 * (V *ᵥ p) (.inl (.inr k)) = 0 ∧
    (p (.inr (.inl k)) = 0 →
      ‖(V *ᵥ p) (.inl (.inl k))‖ ^ 2 + ‖(V *ᵥ p) (.inl (.inr k))‖ ^ 2 = ‖p (.inl (.inl k))‖ ^ 2) := by
  obtain ⟨-, -, rfl⟩ := TLattice.V_ok hV
  obtain ⟨e1, e2, -, -⟩ := diagBlocks_mulVec (fun k => TLattice.vBlock (l.dir (↑a, ↑b) k).1 (l.dir (↑a, ↑b) k).2
    (l.cosz eps wl (↑a, ↑b) k) (csqrt eps.val / mu0c)) p k
  have hu : 1 / 2 ^ 52 ≤ ‖(l.wave (↑a, ↑b) k).1‖ ^ 2 + ‖(l.wave (↑a, ↑b) k).2‖ ^ 2 →
      1 / 2 ^ 52 ≤ uNorm (l.wave (↑a, ↑b) k) ^ 2 := fun h => by
    rwa [uNorm, Real.sq_sqrt (by positivity)]
  have hw := TLattice.wave_eq (hc.imp id hu)
  obtain ⟨X, Y, hXY, hn⟩ := planarDir_real (a + flatT l.shape l.gx k) (b + flatT l.shape l.gy k)
  have hd : l.dir (↑a, ↑b) k = (↑X, ↑Y) := by
    rw [← hXY]
    simp [TLattice.dir]
  rw [e1, e2, h1, h2, hd]
  rw [hd] at hw
  constructor
  · rw [hw]
    simp [TLattice.vBlock]
    ring
  · intro h3
    rw [h3]
    simp [TLattice.vBlock]
    rw [mul_pow, mul_pow, ← add_mul, sq_abs, sq_abs, add_comm (Y ^ 2), hn, one_mul]

/-- **C81.** And the magnetic field of an order without `s` amplitudes is perpendicular to its plane of incidence. -/
theorem C81_tmat_p (hV : l.V eps wl (↑a, ↑b) = .ok V) {k : Fin (l.shape.1 * l.shape.2)}
    (hc : l.wave (↑a, ↑b) k = 0 ∨ 1 / 2 ^ 52 ≤ ‖(l.wave (↑a, ↑b) k).1‖ ^ 2 + ‖(l.wave (↑a, ↑b) k).2‖ ^ 2)
    {p : TIdx l.shape → ℂ} (h1 : p (.inl (.inl k)) = 0) (h2 : p (.inr (.inl k)) = 0) :
    (l.wave (↑a, ↑b) k).1 * (V *ᵥ p) (.inr (.inl k)) + (l.wave (↑a, ↑b) k).2 * (V *ᵥ p) (.inr (.inr k)) = 0 := by
  obtain ⟨-, -, rfl⟩ := TLattice.V_ok hV
  obtain ⟨-, -, e1, e2⟩ := diagBlocks_mulVec (fun k => TLattice.vBlock (l.dir (↑a, ↑b) k).1 (l.dir (↑a, ↑b) k).2
    (l.cosz eps wl (↑a, ↑b) k) (csqrt eps.val / mu0c)) p k
  have hu : 1 / 2 ^ 52 ≤ ‖(l.wave (↑a, ↑b) k).1‖ ^ 2 + ‖(l.wave (↑a, ↑b) k).2‖ ^ 2 →
      1 / 2 ^ 52 ≤ uNorm (l.wave (↑a, ↑b) k) ^ 2 := fun h => by
    rwa [uNorm, Real.sq_sqrt (by positivity)]
  have hw := TLattice.wave_eq (hc.imp id hu)
  rw [e1, e2, h1, h2, hw]
  simp [TLattice.vBlock]
  ring

/-- **C81.** At normal incidence they are the directions incidence along `x` has: `s` along `y` and `p` along `x`. -/
theorem C81_tmat_normal {r : ℝ} (hr : 0 < r) (hwl : 0 < wl) (hV : l.V (.float r) wl (0, 0) = .ok V)
    {k : Fin (l.shape.1 * l.shape.2)} (hx : flatT l.shape l.gx k = 0) (hy : flatT l.shape l.gy k = 0)
    {p : TIdx l.shape → ℂ} (h1 : p (.inr (.inl k)) = 0) (h2 : p (.inr (.inr k)) = 0) :
    (V *ᵥ p) (.inl (.inl k)) = -p (.inl (.inr k)) ∧ (V *ᵥ p) (.inl (.inr k)) = -p (.inl (.inl k)) := by
  obtain ⟨-, -, rfl⟩ := TLattice.V_ok hV
  obtain ⟨e1, e2, -, -⟩ := diagBlocks_mulVec (fun k => TLattice.vBlock (l.dir (0, 0) k).1 (l.dir (0, 0) k).2
    (l.cosz (.float r) wl (0, 0) k) (csqrt (PyNum.float r).val / mu0c)) p k
  have hd : l.dir (0, 0) k = (1, 0) := by
    unfold TLattice.dir
    rw [hx, hy]
    simp [planarDir, uNorm]
  have hcos : l.cosz (.float r) wl (0, 0) k = 1 := by
    have hk : flatT l.shape (l.kz (.float r) wl (0, 0)) k = ((Real.sqrt r * (2 * Real.pi / wl) : ℝ) : ℂ) := by
      have hz : flatT l.shape (l.kz (.float r) wl (0, 0)) k
          = computeKz (flatT l.shape l.gx k) (flatT l.shape l.gy k) r wl (0, 0) := rfl
      rw [hz, hx, hy]
      unfold computeKz
      have hs : csqrt ((r : ℂ) * ((2 * Real.pi / wl : ℝ) : ℂ) ^ 2 - ((uNorm (((0 : ℂ), (0 : ℂ)).1 + ((0 : ℝ) : ℂ),
          ((0 : ℂ), (0 : ℂ)).2 + ((0 : ℝ) : ℂ)) : ℝ) : ℂ) ^ 2) = ((Real.sqrt r * (2 * Real.pi / wl) : ℝ) : ℂ) := by
        have hu : uNorm (((0 : ℂ), (0 : ℂ)).1 + ((0 : ℝ) : ℂ), ((0 : ℂ), (0 : ℂ)).2 + ((0 : ℝ) : ℂ)) = 0 := by
          simp [uNorm]
        rw [hu]
        have : (r : ℂ) * ((2 * Real.pi / wl : ℝ) : ℂ) ^ 2 - ((0 : ℝ) : ℂ) ^ 2 = ((r * (2 * Real.pi / wl) ^ 2 : ℝ) : ℂ) := by
          push_cast; ring
        rw [this, csqrt_ofReal_nonneg (by positivity), Real.sqrt_mul hr.le, Real.sqrt_sq (by positivity)]
      simp only [hs]
      rw [if_neg]
      rw [Complex.ofReal_im, Complex.ofReal_re]
      push Not
      exact ⟨le_refl 0, fun _ => by positivity⟩
    unfold TLattice.cosz
    rw [hk]
    have hv : csqrt (PyNum.float r).val = ((Real.sqrt r : ℝ) : ℂ) := csqrt_ofReal_nonneg hr.le
    rw [hv]
    have h3 : ((Real.sqrt r : ℝ) : ℂ) ≠ 0 := by
      exact_mod_cast (Real.sqrt_pos.2 hr).ne'
    have h4 : (wl : ℂ) ≠ 0 := by exact_mod_cast hwl.ne'
    have h5 : (Real.pi : ℂ) ≠ 0 := by exact_mod_cast Real.pi_ne_zero
    push_cast
    field_simp
  rw [e1, e2, h1, h2, hd, hcos]
  simp [TLattice.vBlock]

/-- The hypotheses are met by the order of the normal direction of a lattice of one order in vacuum. -/
example : ∃ (l : TLattice) (V : Matrix (TIdx l.shape) (TIdx l.shape) ℂ) (k : Fin (l.shape.1 * l.shape.2)),
    l.V (.float 1) 2 (0, 0) = .ok V ∧ flatT l.shape l.gx k = 0 ∧ flatT l.shape l.gy k = 0 := by
  obtain ⟨l, h, hb⟩ := unit_tlattice (1, 1) rfl (.float 1) (.float 1)
  have hs : l.shape = (1, 1) := (TLattice.make_shape_iff h (by norm_num)).2 (Or.inl rfl)
  obtain ⟨V, hV⟩ := TLattice.V_exists (l := l) (wl := 2) (kp := (0, 0)) (eps := .float 1) two_ne_zero
    (by simp [PyNum.val]) (by simp [TLattice.Rooted])
  refine ⟨l, V, ⟨0, by rw [hs]; norm_num⟩, hV, ?_, ?_⟩
  · simp [flatT, hs, (TLattice.make_gx h _ _).1]
  · simp [flatT, hs, (TLattice.make_gx h _ _).2]

end Tmat

section Crystal
variable {N : ℕ} {a b c : ℝ} {v : Vec2 N} {i : Fin N}

/-- **C81.** In the crystal interface, away from normal incidence: the tangential field of `te` is perpendicular to the
plane of incidence, that of `tm` in it.  (Partial: the property asks for the same directions at normal incidence, where
the two are exchanged.) -/
theorem C81_crystal_partial (hk : (1 / 10 ^ 8) ^ 2 ≤ a ^ 2 + b ^ 2) {te tm : ℂ}
    (h : incident N te tm ⟨a, b, c⟩ = .ok v) :
    (tm = 0 → a * v (.inl i) + b * v (.inr i) = 0) ∧ (te = 0 → a * v (.inr i) - b * v (.inl i) = 0) := by
  obtain ⟨-, hp, aTE, aTM, hpol, rfl⟩ := incident_eq_ok.1 h
  have hs2 : Real.sqrt (a ^ 2 + b ^ 2) ^ 2 = a ^ 2 + b ^ 2 := Real.sq_sqrt (by positivity)
  have hs : 1 / 10 ^ 8 ≤ Real.sqrt (a ^ 2 + b ^ 2) := Real.le_sqrt_of_sq_le hk
  have hs1 : 0 < Real.sqrt (a ^ 2 + b ^ 2) := lt_of_lt_of_le (by positivity) hs
  rw [polarisations_large hs2 hs (K := Real.sqrt (Real.sqrt (a ^ 2 + b ^ 2) ^ 2 + c ^ 2)) (Real.sq_sqrt (by positivity))
    (Real.sqrt_pos.2 (by positivity)), Except.ok.injEq, Prod.mk.injEq] at hpol
  obtain ⟨rfl, rfl⟩ := hpol
  constructor
  · rintro rfl
    simp only [Sum.elim_inl, Sum.elim_inr]
    push_cast
    ring
  · rintro rfl
    simp only [Sum.elim_inl, Sum.elim_inr]
    push_cast
    ring

/-- **C81, counterexample.** `te` is along `y` for every incidence along `x`, however small the angle (above the cut-off),
and along `x` at normal incidence. -/
theorem C81_crystal_counterexample (hi : (i : ℕ) = (N - 1) / 2) (c : ℝ) :
    (∃ v, incident N 1 0 ⟨((0 : ℝ) : ℂ), ((0 : ℝ) : ℂ), c⟩ = .ok v ∧ v (.inl i) = 1 ∧ v (.inr i) = 0) ∧
    ∀ s : ℝ, 1 / 10 ^ 8 ≤ s →
      ∃ v, incident N 1 0 ⟨(s : ℂ), ((0 : ℝ) : ℂ), c⟩ = .ok v ∧ v (.inl i) = 0 ∧ v (.inr i) = 1 := by
  have hN : 0 < N := by have := i.2; omega
  have hp : polNorm 1 0 = 1 := by simp [polNorm]
  constructor
  · obtain ⟨v, hv⟩ := C17_returns hN (te := 1) (tm := 0) (by simp) 0 0 c
    refine ⟨v, hv, ?_⟩
    obtain ⟨-, -, aTE, aTM, hpol, rfl⟩ := incident_eq_ok.1 hv
    rw [polarisations_small (by simp), Except.ok.injEq, Prod.mk.injEq] at hpol
    obtain ⟨rfl, rfl⟩ := hpol
    simp [hp, hi]
  · intro s hs
    have hs1 : 0 < s := lt_of_lt_of_le (by positivity) hs
    obtain ⟨v, hv⟩ := C17_returns hN (te := 1) (tm := 0) (by simp) s 0 c
    refine ⟨v, hv, ?_⟩
    obtain ⟨-, -, aTE, aTM, hpol, rfl⟩ := incident_eq_ok.1 hv
    rw [polarisations_large (s := s) (by ring) hs (K := Real.sqrt (s ^ 2 + c ^ 2)) (Real.sq_sqrt (by positivity))
      (Real.sqrt_pos.2 (by positivity)), Except.ok.injEq, Prod.mk.injEq] at hpol
    obtain ⟨rfl, rfl⟩ := hpol
    have : (s : ℂ) ≠ 0 := by exact_mod_cast hs1.ne'
    simp [hp, hi, this]

end Crystal

section Both
variable {N : ℕ} {v : Vec2 N} {i : Fin N} {l : TLattice} {wl : ℝ} {a b c : ℝ} {eps : PyNum}
  {V : Matrix (TIdx l.shape) (TIdx l.shape) ℂ}

/-- **C81.** The two interfaces agree away from normal incidence: `te` and `s` fields are parallel.  (Partial: not at
normal incidence, see the counterexample.) -/
theorem C81_agree_partial (hV : l.V eps wl (↑a, ↑b) = .ok V) {k : Fin (l.shape.1 * l.shape.2)}
    (hx : flatT l.shape l.gx k = 0) (hy : flatT l.shape l.gy k = 0)
    (hk : 1 / 2 ^ 52 ≤ a ^ 2 + b ^ 2) {p : TIdx l.shape → ℂ} (h1 : p (.inl (.inr k)) = 0) (h2 : p (.inr (.inr k)) = 0)
    {te : ℂ} (h : incident N te 0 ⟨a, b, c⟩ = .ok v) :
    v (.inl i) * (V *ᵥ p) (.inl (.inr k)) - v (.inr i) * (V *ᵥ p) (.inl (.inl k)) = 0 := by
  have hwv : l.wave (↑a, ↑b) k = (↑a, ↑b) := by simp [TLattice.wave, hx, hy]
  obtain ⟨hs, -⟩ := C81_tmat_s hV (k := k) (Or.inr (by rw [hwv]; simpa using hk)) h1 h2
  have hc := (C81_crystal_partial (i := i) (le_trans (by norm_num) hk) h).1 rfl
  rw [hwv] at hs
  simp only at hs
  have h0 : (a : ℂ) ^ 2 + (b : ℂ) ^ 2 ≠ 0 := by
    have : a ^ 2 + b ^ 2 ≠ 0 := (lt_of_lt_of_le (by positivity) hk).ne'
    exact_mod_cast this
  refine (mul_eq_zero.1 ?_).resolve_left h0
  linear_combination (↑a * (V *ᵥ p) (.inl (.inr k)) - ↑b * (V *ᵥ p) (.inl (.inl k))) * hc
    + (↑b * v (.inl i) - ↑a * v (.inr i)) * hs

/-- **C81, counterexample.** At normal incidence `te` is the `p` polarisation: its field is along the one `p` excites, and
perpendicular to the one `s` does. -/
theorem C81_agree_counterexample (hi : (i : ℕ) = (N - 1) / 2) {r : ℝ} (hr : 0 < r) (hwl : 0 < wl)
    (hV : l.V (.float r) wl (0, 0) = .ok V) {k : Fin (l.shape.1 * l.shape.2)}
    (hx : flatT l.shape l.gx k = 0) (hy : flatT l.shape l.gy k = 0) (c : ℝ) :
    ∃ v, incident N 1 0 ⟨((0 : ℝ) : ℂ), ((0 : ℝ) : ℂ), c⟩ = .ok v ∧
      (v (.inl i), v (.inr i)) = (-(V *ᵥ Pi.single (.inl (.inr k)) 1) (.inl (.inl k)), -(V *ᵥ Pi.single (.inl (.inr k)) 1) (.inl (.inr k))) ∧
      v (.inl i) * (V *ᵥ Pi.single (.inl (.inl k)) 1) (.inl (.inl k)) + v (.inr i) * (V *ᵥ Pi.single (.inl (.inl k)) 1) (.inl (.inr k)) = 0 := by
  obtain ⟨⟨v, hv, e1, e2⟩, -⟩ := C81_crystal_counterexample hi c
  obtain ⟨p1, p2⟩ := C81_tmat_normal hr hwl hV hx hy (p := Pi.single (.inl (.inr k)) 1) (by simp) (by simp)
  obtain ⟨s1, s2⟩ := C81_tmat_normal hr hwl hV hx hy (p := Pi.single (.inl (.inl k)) 1) (by simp) (by simp)
  refine ⟨v, hv, ?_, ?_⟩
  · rw [p1, p2, e1, e2]
    simp
  · rw [s1, s2, e1, e2]
    simp

end Both

end Khepri
