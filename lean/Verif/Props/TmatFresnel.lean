import Verif.Lemmas.TmatFresnel
import Verif.Lemmas.EzSpectrum
import Verif.Props.TmatPhysics

/-!
# C84: the interface of the slice formulation
-/

namespace Khepri

open Matrix Complex

section C84
variable {l : TLattice} {wl a b : ℝ} {rI rE : ℝ}

/-- **C84.** Between real positive media, unless an order grazes in the incidence medium, the S-matrix of the interface
exists, couples no two orders and no two polarisations, and its entries are Fresnel's coefficients: from both sides, in both
polarisations, for propagating and evanescent orders alike. -/
theorem C84_interface (hw : wl ≠ 0) (hI : l.epsI.val = rI) (hI0 : 0 < rI) (hE : l.epsE.val = rE) (hE0 : 0 < rE)
    (hk : ∀ k, flatT l.shape (l.kz l.epsI wl (↑a, ↑b)) k ≠ 0) :
    ∃ S, tmatInterface l wl (↑a, ↑b) = .ok S ∧ ∀ (p : TIdx l.shape → ℂ) (k : Fin (l.shape.1 * l.shape.2)) (kI kE n : ℂ),
      kI = flatT l.shape (l.kz l.epsI wl (↑a, ↑b)) k → kE = flatT l.shape (l.kz l.epsE wl (↑a, ↑b)) k →
      n = (Real.sqrt (rI * rE) : ℝ) → kI + kE ≠ 0 ∧ rE * kI + rI * kE ≠ 0 ∧
      (S *ᵥ p) (.inl (.inl k)) = (2 * kI * p (.inl (.inl k)) + (kE - kI) * p (.inr (.inl k))) / (kI + kE) ∧
      (S *ᵥ p) (.inr (.inl k)) = ((kI - kE) * p (.inl (.inl k)) + 2 * kE * p (.inr (.inl k))) / (kI + kE) ∧
      (S *ᵥ p) (.inl (.inr k)) = (2 * n * kI * p (.inl (.inr k)) + (rI * kE - rE * kI) * p (.inr (.inr k))) / (rE * kI + rI * kE) ∧
      (S *ᵥ p) (.inr (.inr k)) = ((rE * kI - rI * kE) * p (.inl (.inr k)) + 2 * n * kE * p (.inr (.inr k))) / (rE * kI + rI * kE) := by
  have rooted : ∀ {eps : PyNum} {r : ℝ}, eps.val = r → 0 < r → TLattice.Rooted eps := by
    intro eps r h h0
    cases eps with
    | float x =>
      have : x = r := by simpa [PyNum.val] using h
      exact this ▸ h0.le
    | complex z => trivial
  have hI1 : l.epsI.val ≠ 0 := by rw [hI]; exact_mod_cast hI0.ne'
  have hE1 : l.epsE.val ≠ 0 := by rw [hE]; exact_mod_cast hE0.ne'
  obtain ⟨U, hU⟩ := TLattice.U_exists hw hI1 hk
  obtain ⟨Vi, hVi⟩ := TLattice.V_exists (l := l) (kp := (↑a, ↑b)) hw hI1 (rooted hI hI0)
  obtain ⟨Ve, hVe⟩ := TLattice.V_exists (l := l) (kp := (↑a, ↑b)) hw hE1 (rooted hE hE0)
  have hs : ∀ k, flatT l.shape (l.kz l.epsI wl (↑a, ↑b)) k + flatT l.shape (l.kz l.epsE wl (↑a, ↑b)) k ≠ 0 := fun k => by
    simpa using TLattice.axes_add_ne (TLattice.kz_axes hI k) (TLattice.kz_axes hE k) (hk k) one_pos one_pos
  have hp : ∀ k, rE * flatT l.shape (l.kz l.epsI wl (↑a, ↑b)) k + rI * flatT l.shape (l.kz l.epsE wl (↑a, ↑b)) k ≠ 0 := fun k =>
    TLattice.axes_add_ne (TLattice.kz_axes hI k) (TLattice.kz_axes hE k) (hk k) hE0 hI0
  refine ⟨_, TLattice.interface_closed hI hI0 hE hE0 hU hVi hVe hs hp, ?_⟩
  rintro p k kI kE n rfl rfl rfl
  refine ⟨hs k, hp k, ?_⟩
  rw [Real.sqrt_mul hI0.le]
  have hm : ∀ A B C D : Fin (l.shape.1 * l.shape.2) ⊕ Fin (l.shape.1 * l.shape.2) → ℂ,
      (∀ i, (fromBlocks (diagonal A) (diagonal B) (diagonal C) (diagonal D) *ᵥ p) (.inl i) = A i * p (.inl i) + B i * p (.inr i)) ∧
      ∀ i, (fromBlocks (diagonal A) (diagonal B) (diagonal C) (diagonal D) *ᵥ p) (.inr i) = C i * p (.inl i) + D i * p (.inr i) := by
    intro A B C D
    have e : p = Sum.elim (p ∘ Sum.inl) (p ∘ Sum.inr) := (Sum.elim_comp_inl_inr p).symm
    rw [e, fromBlocks_mulVec]
    constructor <;> intro i <;> simp [mulVec_diagonal]
  refine ⟨?_, ?_, ?_, ?_⟩
  · rw [(hm _ _ _ _).1]; simp only [Sum.elim_inl]; ring
  · rw [(hm _ _ _ _).2]; simp only [Sum.elim_inl]; ring
  · rw [(hm _ _ _ _).1]; simp only [Sum.elim_inr]; ring
  · rw [(hm _ _ _ _).2]; simp only [Sum.elim_inr]; ring

/-- **C84.** So the bare interface at normal incidence has the reflectance and transmittance of Fresnel's formulas, whatever
the polarisation, and absorbs nothing: the same as in the other formulation (C70). -/
theorem C84_normal {pw : ℕ × ℕ} {a1 a2 : R2} {ei ee : PyNum} (h : TLattice.make pw a1 a2 ei ee = .ok l) (hw : 0 < wl)
    (hI : l.epsI.val = rI) (hI0 : 0 < rI) (hE : l.epsE.val = rE) (hE0 : 0 < rE)
    (hk : ∀ k, flatT l.shape (l.kz l.epsI wl (0, 0)) k ≠ 0) {s p : ℂ} (hsp : s ≠ 0 ∨ p ≠ 0)
    {pin0 : TIdx pw → ℂ} (h0 : tmatIncident pw 1 p s = .ok pin0) {pin : TIdx l.shape → ℂ} (h1 : fitVector pw l.shape pin0 = .ok pin) :
    ∃ S, tmatInterface l wl (0, 0) = .ok S ∧ computeFluxes l wl pin (S *ᵥ pin) (0, 0) =
      .ok (((Real.sqrt rI - Real.sqrt rE) / (Real.sqrt rI + Real.sqrt rE)) ^ 2,
        4 * Real.sqrt rI * Real.sqrt rE / (Real.sqrt rI + Real.sqrt rE) ^ 2, 0) := by
  have z0 : (((0 : ℝ) : ℂ), ((0 : ℝ) : ℂ)) = (0, 0) := by simp
  obtain ⟨S, hS, hf⟩ := C84_interface (a := 0) (b := 0) hw.ne' hI hI0 hE hE0 (by rw [z0]; exact hk)
  rw [z0] at hS hf
  refine ⟨S, hS, ?_⟩
  obtain ⟨hsz, hlt, p1, p2, p3⟩ := fitVector_eq_ok h0 h1
  obtain ⟨hsh, -, -⟩ := TLattice.fit_shape h hsz hlt
  obtain ⟨k0, hk0, gx0, gy0⟩ := TLattice.specular h hsh hlt
  have kI := TLattice.specular_kz hI hI0 hw gx0 gy0
  have kE := TLattice.specular_kz hE hE0 hw gx0 gy0
  have hpi := Real.pi_pos
  have sI := Real.sqrt_pos.2 hI0
  have sE := Real.sqrt_pos.2 hE0
  have hne : ∀ k, k ≠ k0 → (k : ℕ) ≠ pw.1 / 2 + pw.1 * (pw.2 / 2) := fun k hk e => hk (Fin.ext (e.trans hk0.symm))
  have q1 : ∀ k, k ≠ k0 → pin (.inl (.inl k)) = 0 ∧ pin (.inl (.inr k)) = 0 := fun k hk => by
    rw [p1, p2, if_neg (hne k hk), if_neg (hne k hk)]; exact ⟨rfl, rfl⟩
  have q2 : pin (.inl (.inl k0)) = s ∧ pin (.inl (.inr k0)) = p := by
    rw [p1, p2, if_pos hk0, if_pos hk0]; exact ⟨rfl, rfl⟩
  set κ := 2 * Real.pi / wl with hκ
  have hκ0 : 0 < κ := by positivity
  obtain ⟨-, -, f1, f2, f3, f4⟩ := hf pin k0 _ _ _ rfl rfl rfl
  rw [kI, kE, p3, q2.1] at f1 f2
  rw [kI, kE, p3, q2.2] at f3 f4
  set x := Real.sqrt rI with hx
  set y := Real.sqrt rE with hy
  have rIx : rI = x ^ 2 := (Real.sq_sqrt hI0.le).symm
  have rEy : rE = y ^ 2 := (Real.sq_sqrt hE0.le).symm
  have hxy : Real.sqrt (rI * rE) = x * y := Real.sqrt_mul hI0.le _
  have xy0 : (x : ℂ) + y ≠ 0 := by exact_mod_cast (by positivity : x + y ≠ 0)
  have x0 : (x : ℂ) ≠ 0 := by exact_mod_cast sI.ne'
  have y0 : (y : ℂ) ≠ 0 := by exact_mod_cast sE.ne'
  have κ0 : (κ : ℂ) ≠ 0 := by exact_mod_cast hκ0.ne'
  have d1 : ((x * κ : ℝ) : ℂ) + ((y * κ : ℝ) : ℂ) = κ * (x + y) := by push_cast; ring
  have d2 : (rE : ℂ) * ((x * κ : ℝ) : ℂ) + rI * ((y * κ : ℝ) : ℂ) = x * y * κ * (x + y) := by
    rw [rIx, rEy]; push_cast; ring
  have g1 : (S *ᵥ pin) (.inl (.inl k0)) = ((2 * x / (x + y) : ℝ) : ℂ) * s := by
    rw [f1, d1]; push_cast; field_simp; ring
  have g2 : (S *ᵥ pin) (.inr (.inl k0)) = (((x - y) / (x + y) : ℝ) : ℂ) * s := by
    rw [f2, d1]; push_cast; field_simp; ring
  have g3 : (S *ᵥ pin) (.inl (.inr k0)) = ((2 * x / (x + y) : ℝ) : ℂ) * p := by
    rw [f3, d2, hxy]; push_cast; field_simp; ring
  have g4 : (S *ᵥ pin) (.inr (.inr k0)) = ((-((x - y) / (x + y)) : ℝ) : ℂ) * p := by
    rw [f4, d2, rIx, rEy]; push_cast; field_simp; ring
  have q3 : ∀ k, k ≠ k0 → (S *ᵥ pin) (.inl (.inl k)) = 0 ∧ (S *ᵥ pin) (.inl (.inr k)) = 0 ∧ (S *ᵥ pin) (.inr (.inl k)) = 0 ∧
      (S *ᵥ pin) (.inr (.inr k)) = 0 := fun k hk => by
    obtain ⟨-, -, e1, e2, e3, e4⟩ := hf pin k _ _ _ rfl rfl rfl
    rw [e1, e2, e3, e4, (q1 k hk).1, (q1 k hk).2, p3, p3]
    simp
  set N : ℝ := ‖s‖ ^ 2 + ‖p‖ ^ 2 with hN
  have hN0 : 0 < N := by
    rcases hsp with hs | hp
    · have := norm_pos_iff.2 hs; positivity
    · have := norm_pos_iff.2 hp; positivity
  rw [TLattice.fluxes_specular h hw hE (mul_pos sI hκ0) (mul_pos sE hκ0) kI kE q1 q3 (X := N)
    (Y := ((x - y) / (x + y)) ^ 2 * N) (Z := (2 * x / (x + y)) ^ 2 * N) (by rw [q2.1, q2.2]) hN0.ne'
    (by rw [g2, g4, norm_mul, norm_mul, mul_pow, mul_pow, Complex.norm_real, Complex.norm_real, Real.norm_eq_abs, Real.norm_eq_abs,
          sq_abs, sq_abs]; ring)
    (by rw [g1, g3, norm_mul, norm_mul, mul_pow, mul_pow, Complex.norm_real, Real.norm_eq_abs, sq_abs]; ring)]
  have hpos : 0 < x + y := by positivity
  congr 1
  refine Prod.ext ?_ (Prod.ext ?_ ?_)
  · simp only; field_simp
  · simp only; field_simp; ring
  · simp only; field_simp; ring

/-- Non-vacuity of C84: from vacuum to glass on 3 × 3 orders, s-polarised light at wavelength 2. -/
example : ∃ (l : TLattice) (pin0 : TIdx (3, 3) → ℂ) (pin : TIdx l.shape → ℂ),
    TLattice.make (3, 3) (1, 0) (0, 1) (.float 1) (.float (9 / 4)) = .ok l ∧ l.epsI.val = ((1 : ℝ) : ℂ) ∧
    l.epsE.val = ((9 / 4 : ℝ) : ℂ) ∧ (∀ k, flatT l.shape (l.kz l.epsI 2 (0, 0)) k ≠ 0) ∧
    tmatIncident (3, 3) 1 0 1 = .ok pin0 ∧ fitVector (3, 3) l.shape pin0 = .ok pin := by
  obtain ⟨l, h, hb⟩ := unit_tlattice (3, 3) rfl (.float 1) (.float (9 / 4))
  obtain ⟨-, -, -, -, h1, h2⟩ := TLattice.make_fields h
  obtain ⟨v, hv⟩ := C46_incident_exists (pw := (3, 3)) (by norm_num) (by norm_num) 1 0 1
  have hs : l.shape = (3, 3) := (TLattice.make_shape_iff h (by norm_num)).2 (Or.inl rfl)
  obtain ⟨pin, hpin⟩ := fitVector_exists (pw := (3, 3)) (s := l.shape) (by rw [hs]) v
  refine ⟨l, v, pin, h, by rw [h1]; rfl, by rw [h2]; rfl, ?_, hv, hpin⟩
  rw [h1]
  exact unit_tlattice_kz_ne h hb (Or.inl rfl)

end C84

end Khepri
