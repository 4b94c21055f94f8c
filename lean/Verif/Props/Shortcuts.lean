import Verif.Props.Layer
import Verif.Props.Convolution
import Verif.Props.Expansion
import Verif.Lemmas.ExamplePlate

/-!
# C62, C63: what angles mean, and `pixmap_or_uniform`
-/

namespace Khepri

open Complex

/-! ## C62 -/

/-- **C62.** In a medium of non-negative permittivity, `compute_kplanar(eps, wl, theta, phi)` is the in-plane part of a wave
vector of length `sqrt(eps) 2 pi / wl` whose angle with the z axis is `theta` degrees and whose in-plane part makes
`phi` degrees with the x axis. -/
theorem C62_angles {eps : ℝ} (he : 0 ≤ eps) {wl : ℝ} (hw : wl ≠ 0) (theta phi : ℝ) :
    ∃ kx ky kz : ℝ, computeKplanar (eps : ℂ) wl theta phi = .ok (↑kx, ↑ky) ∧
      kx ^ 2 + ky ^ 2 + kz ^ 2 = eps * (2 * Real.pi / wl) ^ 2 ∧
      kz = Real.sqrt eps * (2 * Real.pi / wl) * Real.cos (theta * Real.pi / 180) ∧
      kx = Real.sqrt eps * (2 * Real.pi / wl) * Real.sin (theta * Real.pi / 180) * Real.cos (phi * Real.pi / 180) ∧
      ky = Real.sqrt eps * (2 * Real.pi / wl) * Real.sin (theta * Real.pi / 180) * Real.sin (phi * Real.pi / 180) := by
  refine ⟨_, _, _, ?_, ?_, rfl, rfl, rfl⟩
  · unfold computeKplanar
    simp only [hw, if_false, pure, Except.pure]
    congr 1
    rw [csqrt_ofReal_nonneg he, mul_div_assoc, mul_div_assoc]
    refine Prod.ext ?_ ?_ <;>
    · push_cast
      ring_nf
  · have h1 := Real.sin_sq_add_cos_sq (theta * Real.pi / 180)
    have h2 := Real.sin_sq_add_cos_sq (phi * Real.pi / 180)
    have h3 := Real.sq_sqrt he
    have e : ∀ s k st ct sp cp : ℝ, st ^ 2 + ct ^ 2 = 1 → sp ^ 2 + cp ^ 2 = 1 → s ^ 2 = eps →
        (s * k * st * cp) ^ 2 + (s * k * st * sp) ^ 2 + (s * k * ct) ^ 2 = eps * k ^ 2 := by
      intro s k st ct sp cp a1 a2 a3
      have : (s * k * st * cp) ^ 2 + (s * k * st * sp) ^ 2 + (s * k * ct) ^ 2 =
          s ^ 2 * k ^ 2 * (st ^ 2 * (sp ^ 2 + cp ^ 2) + ct ^ 2) := by ring
      rw [this, a2, a3, mul_one, a1, mul_one]
    exact e _ _ _ _ _ _ h1 h2 h3

/-- **C62.** Opposite angles give opposite wave vectors, and a half turn in azimuth is the opposite polar angle. -/
theorem C62_opposite (eps : ℂ) (wl theta phi : ℝ) {k : ℂ × ℂ} (h : computeKplanar eps wl theta phi = .ok k) :
    computeKplanar eps wl (-theta) phi = .ok (-k) ∧ computeKplanar eps wl theta (phi + 180) = .ok (-k) := by
  unfold computeKplanar at h ⊢
  by_cases hw : wl = 0
  · simp [hw, throw, throwThe, MonadExceptOf.throw] at h
  · simp only [hw, if_false, pure, Except.pure, Except.ok.injEq] at h ⊢
    subst h
    have e : (phi + 180) * (Real.pi / 180) = phi * (Real.pi / 180) + Real.pi := by ring
    constructor
    · simp only [neg_mul, Real.sin_neg, ofReal_neg, mul_neg, Prod.neg_mk]
    · simp only [e, Real.sin_add_pi, Real.cos_add_pi, ofReal_neg, neg_mul, Prod.neg_mk]

/-- **C62.** `set_source` accepts every polarisation, every angle and every in-plane wave vector, real or complex; only a
null wavelength is refused.  It stores what it was given, an explicit wave vector taking precedence over the angles; the
wave obeys the dispersion relation of the entrance medium; nothing else in the crystal changes. -/
theorem C62_set_source {N : ℕ} (c : Crystal N) (wl : ℝ) (te tm : ℂ) (theta phi : ℝ) (kpo : Option (ℂ × ℂ)) :
    (wl = 0 → ∃ e, c.setSource wl te tm theta phi kpo = .error e) ∧
    (wl ≠ 0 → ∃ c' src, c.setSource wl te tm theta phi kpo = .ok c' ∧ c' = { c with source := some src } ∧
      src.te = te ∧ src.tm = tm ∧ src.theta = theta ∧ src.phi = phi ∧ src.wavelength = wl ∧
      (∀ kp, kpo = some kp → src.kp = kp) ∧ (kpo = none → computeKplanar c.epsi wl theta phi = .ok src.kp) ∧
      src.kp.1 ^ 2 + src.kp.2 ^ 2 + star src.kzi ^ 2 = (2 * Real.pi / wl : ℂ) ^ 2 * c.epsi) := by
  constructor
  · intro h
    cases h' : c.setSource wl te tm theta phi kpo with
    | error e => exact ⟨e, rfl⟩
    | ok c' => exact absurd h (Crystal.setSource_eq_ok.1 h').1
  · intro h
    obtain ⟨k, hk⟩ : ∃ k, Crystal.orDefault kpo (computeKplanar c.epsi wl theta phi) = .ok k := by
      cases kpo with
      | some k => exact ⟨k, rfl⟩
      | none => simp [Crystal.orDefault, computeKplanar, h, pure, Except.pure]
    refine ⟨_, _, Crystal.setSource_eq_ok.2 ⟨h, k, hk, rfl⟩, rfl, rfl, rfl, rfl, rfl, rfl, ?_, ?_, ?_⟩
    · rintro kp rfl
      simpa [Crystal.orDefault] using hk.symm
    · rintro rfl
      simpa [Crystal.orDefault] using hk
    · simp only [star_star, csqrt_sq]
      push_cast
      ring

/-- Non-vacuity of C62: normal incidence is angle 0. -/
example : computeKplanar 1 1 0 0 = .ok (0, 0) := by
  simp [computeKplanar, pure, Except.pure]

/-! ## C63 -/

section C63
variable {pw : ℕ × ℕ}

/-- **C63.** `Layer.pixmap_or_uniform` makes a uniform layer of the common value exactly when all pixels are equal, and
the pixmap layer otherwise; it only refuses empty pixmaps. -/
theorem C63_kind {N : ℕ} {e : Expansion N} {p : Arr2} {depth : ℝ} :
    (∀ (x0 : Fin p.nx) (y0 : Fin p.ny), (∀ x y, p.val x y = p.val x0 y0) →
      Layer.pixmapOrUniform e p depth = .ok (Layer.uniform e (p.val x0 y0) depth)) ∧
    (∀ (x x' : Fin p.nx) (y y' : Fin p.ny), p.val x y ≠ p.val x' y' →
      Layer.pixmapOrUniform e p depth = .ok (Layer.pixmap e p depth)) ∧
    (p.nx = 0 ∨ p.ny = 0 → Layer.pixmapOrUniform e p depth = .error .index) := by
  refine ⟨fun x0 y0 h => ?_, fun x x' y y' h => ?_, fun h => ?_⟩
  · have hp : 0 < p.nx ∧ 0 < p.ny := ⟨by have := x0.2; omega, by have := y0.2; omega⟩
    unfold Layer.pixmapOrUniform
    simp only
    rw [dif_pos hp, if_pos (fun i j => by rw [h i j, h ⟨0, hp.1⟩ ⟨0, hp.2⟩]), h ⟨0, hp.1⟩ ⟨0, hp.2⟩]
  · have hp : 0 < p.nx ∧ 0 < p.ny := ⟨by have := x.2; omega, by have := y.2; omega⟩
    unfold Layer.pixmapOrUniform
    simp only
    rw [dif_pos hp, if_neg]
    intro hall
    exact h (by rw [hall x y, hall x' y'])
  · unfold Layer.pixmapOrUniform
    rw [dif_neg (by omega)]

/-- **C63.** Its S-matrix is the one of `Layer.pixmap` on the same pixmap, whenever both exist. -/
theorem C63_same {lib : NumLib} (he : ∀ N, EigContract (lib.eig N)) {tag : ℕ} {lat : R2 × R2} {e : Expansion (pw.1 * pw.2)}
    (hm : Expansion.make tag pw lat = .ok e) {p : Arr2} {depth : ℝ} {l l1 l2 : Layer (pw.1 * pw.2)}
    (hl : Layer.pixmapOrUniform e p depth = .ok l) {kp : ℂ × ℂ} {wl : ℝ} (h1 : l.solve lib kp wl = .ok l1)
    (h2 : (Layer.pixmap e p depth).solve lib kp wl = .ok l2) : l1.S = l2.S ∧ ∃ S, l1.S = some S := by
  obtain ⟨o1, o2, b, hb, rfl⟩ := make_eq_ok.1 hm
  unfold Layer.pixmapOrUniform at hl
  by_cases hp : 0 < p.nx ∧ 0 < p.ny
  · rw [dif_pos hp] at hl
    by_cases hall : ∀ i j, p.val i j = p.val ⟨0, hp.1⟩ ⟨0, hp.2⟩
    · simp only [if_pos hall, Except.ok.injEq] at hl
      subst hl
      unfold Layer.solve at h1 h2
      rw [bind_eq_ok] at h1 h2
      obtain ⟨r1, hr1, h1⟩ := h1
      obtain ⟨r2, hr2, h2⟩ := h2
      cases h1
      cases h2
      refine ⟨?_, r1.S, rfl⟩
      simp only [Option.some.injEq]
      simp only [Layer.uniform, Layer.pixmap] at hr1 hr2
      unfold Form.solve at hr1 hr2
      rw [bind_eq_ok] at hr1 hr2
      obtain ⟨⟨kx, ky, kz⟩, hk, hr1⟩ := hr1
      obtain ⟨⟨kx', ky', kz'⟩, hk', hr2⟩ := hr2
      cases hk.symm.trans hk'
      simp only at hr1 hr2
      rw [bind_eq_ok] at hr1 hr2
      obtain ⟨⟨W0, V0⟩, hf, hr1⟩ := hr1
      obtain ⟨⟨W0', V0'⟩, hf', hr2⟩ := hr2
      cases hf.symm.trans hf'
      simp only at hr1 hr2
      rw [bind_eq_ok] at hr1 hr2
      obtain ⟨⟨W, V, L⟩, hu, hr1⟩ := hr1
      obtain ⟨C, hC, hr2⟩ := hr2
      simp only [bind_eq_ok] at hr1
      obtain ⟨S, hS, ic, -, hr1⟩ := hr1
      cases hr1
      unfold solveWithC at hr2
      simp only [bind_eq_ok] at hr2
      obtain ⟨IC, -, ⟨W', V', L'⟩, hs, S', hS', hr2⟩ := hr2
      cases hr2
      have hc := C24_constant (pw := pw) (by omega) (by omega) hC hall
      rw [hc] at hs
      exact C18_uniform_eq_structured (he _) hu hs hS hS'
    · simp only [if_neg hall, Except.ok.injEq] at hl
      subst hl
      cases h1.symm.trans h2
      refine ⟨rfl, ?_⟩
      unfold Layer.solve at h1
      rw [bind_eq_ok] at h1
      obtain ⟨r, -, h1⟩ := h1
      cases h1
      exact ⟨_, rfl⟩
  · rw [dif_neg hp] at hl
    cases hl

/-- Non-vacuity of C63: a constant pixmap solves both ways. -/
example : ∃ (e : Expansion (((1, 1) : ℕ × ℕ).1 * ((1, 1) : ℕ × ℕ).2)) (l l1 l2 : Layer _),
    Expansion.make 0 (1, 1) ((1, 0), (0, 1)) = .ok e ∧ Layer.pixmapOrUniform e platePix (1 / 4) = .ok l ∧
      l.solve plateLib (0, 0) 1 = .ok l1 ∧ (Layer.pixmap e platePix (1 / 4)).solve plateLib (0, 0) 1 = .ok l2 ∧
      l1.S = l2.S := by
  obtain ⟨r, hr, h⟩ := platePix_solve
  have h1 : Layer.pixmapOrUniform exampleExpansion platePix (1 / 4) =
      .ok (Layer.uniform exampleExpansion 4 (1 / 4)) :=
    C63_kind.1 (⟨0, Nat.one_pos⟩ : Fin 1) (⟨0, Nat.one_pos⟩ : Fin 1) fun _ _ => rfl
  refine ⟨exampleExpansion, _, _, _, exampleExpansion_make, h1,
    bind_eq_ok.2 ⟨_, example_plate_solve plateLib, rfl⟩, bind_eq_ok.2 ⟨_, h, rfl⟩, ?_⟩
  exact congrArg some hr.symm

end C63

end Khepri
