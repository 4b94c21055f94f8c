import Verif.Lemmas.ExampleDevice
import Verif.Lemmas.Analytical

/-!
# Properties C12, C15, C16: solved devices, fluxes
-/

namespace Khepri

open Matrix

variable {N : ℕ}

section
variable {lib : NumLib} {order : List String} {c c1 c2 c3 : Crystal N} {stack : List String}
  {m : Bool ⊕ List Bool} {Ls : List (Layer N)} {er et : ℝ} {wl : ℝ} {te tm : ℂ} {theta phi : ℝ}
  {kpo : Option (ℂ × ℂ)}

/-! ### C12 -/

/-- **C12.** `set_device`, `set_source`, `solve` on a device of registered layers between two media of
real permittivity: the total matrix relates the amplitudes of the outer media exactly when there is a
field that obeys Maxwell's equations in every layer, is continuous at every interface, and is made of
the plane waves with those amplitudes outside. -/
theorem C12_crystal (he : EigContract (lib.eig N)) (hc : FreshDevice c stack m Ls er et)
    (h1 : c.setDevice stack m = .ok c1) (h2 : c1.setSource wl te tm theta phi kpo = .ok c2)
    (ho : SetOrder ("Sref" :: (stack ++ ["Strans"])) order) (h3 : c2.solve lib order = .ok c3)
    {src : Source} (hs : c2.source = some src) {kp : ℝ × ℝ} (hkp : src.kp = (↑kp.1, ↑kp.2)) :
    ∃ st Ms, c3.stacked = some st ∧
      LayerEquations lib.jv1 c.expansion (orderKx c.expansion kp wl) (orderKy c.expansion kp wl)
        (2 * Real.pi / wl) Ls Ms ∧
      ∀ p q, Scatters st.Stot p q ↔ MaxwellChain Ms
        (outerField (orderKx c.expansion kp wl) (orderKy c.expansion kp wl) er p)
        (outerField (orderKx c.expansion kp wl) (orderKy c.expansion kp wl) et q) := by
  obtain ⟨lr, lt, Ls', k, hd, hL, hexp, hi, hie, hwl, hk, hsrc, -⟩ := fresh_standard hc h1 h2
  obtain ⟨src', kxc, kyc, W0, V0, rr, rs, rt, st, h⟩ := solvedDevice hd ho h3
  have hs' := h.source
  rw [hs, Option.some.injEq] at hs'
  subst hs'
  rw [hs, Option.some.injEq] at hsrc
  have hw : src.wavelength = wl := by rw [hsrc]
  obtain ⟨rfl, rfl⟩ := h.real hkp
  rw [hw, hexp] at h
  have hlay : List.Forall₂ (fun (_ : String) (_ : Layer N) => True) stack Ls' :=
    hd.layers.imp fun _ _ _ => trivial
  have hfc := h.fieldChain hd.mask_len hlay
  obtain ⟨Ms, hMs, hMF⟩ := h.maxwell he
  obtain ⟨-, -, -, hor⟩ := halfSpaceModes_outer h.ref_modes
  obtain ⟨-, -, -, hot⟩ := halfSpaceModes_outer h.trans_modes
  rw [hw, hexp] at hMs
  refine ⟨st, Ms, by rw [h.rest'], layerEquations_congr hL hMs, fun p q => ?_⟩
  rw [hfc, hMF, hor, hot]

/-- **C12**, existence and uniqueness: whatever the waves sent from both sides, there is exactly one
field in the device. -/
theorem C12_crystal_unique (he : EigContract (lib.eig N)) (hc : FreshDevice c stack m Ls er et)
    (h1 : c.setDevice stack m = .ok c1) (h2 : c1.setSource wl te tm theta phi kpo = .ok c2)
    (ho : SetOrder ("Sref" :: (stack ++ ["Strans"])) order) (h3 : c2.solve lib order = .ok c3)
    {src : Source} (hs : c2.source = some src) {kp : ℝ × ℝ} (hkp : src.kp = (↑kp.1, ↑kp.2)) :
    ∃ Ms, LayerEquations lib.jv1 c.expansion (orderKx c.expansion kp wl) (orderKy c.expansion kp wl)
        (2 * Real.pi / wl) Ls Ms ∧
      ∀ a b : Vec2 N, ∃! o : Vec2 N × Vec2 N, MaxwellChain Ms
        (outerField (orderKx c.expansion kp wl) (orderKy c.expansion kp wl) er ⟨a, o.1⟩)
        (outerField (orderKx c.expansion kp wl) (orderKy c.expansion kp wl) et ⟨o.2, b⟩) := by
  obtain ⟨st, Ms, -, hM, h⟩ := C12_crystal he hc h1 h2 ho h3 hs hkp
  refine ⟨Ms, hM, fun a b => ⟨(st.Stot.s11 *ᵥ a + st.Stot.s12 *ᵥ b, st.Stot.s21 *ᵥ a + st.Stot.s22 *ᵥ b),
    (h _ _).1 ⟨rfl, rfl⟩, ?_⟩⟩
  rintro ⟨o1, o2⟩ ho
  obtain ⟨e1, e2⟩ := (h _ _).2 ho
  exact Prod.ext e1 e2

/-- Non-vacuity of C12: the half-wave plate between vacuum and a medium of index 2. -/
example : ∃ (c c1 c2 c3 : Crystal 1) (Ls : List (Layer 1)) (order : List String) (src : Source),
    EigContract (exampleLib.eig 1) ∧ FreshDevice c ["a"] (.inl true) Ls ((1 : ℝ) : ℂ) ((2 ^ 2 : ℝ) : ℂ) ∧
    c.setDevice ["a"] (.inl true) = .ok c1 ∧ c1.setSource 1 1 0 0 0 none = .ok c2 ∧
    SetOrder ("Sref" :: (["a"] ++ ["Strans"])) order ∧ c2.solve exampleLib order = .ok c3 ∧
    c2.source = some src ∧ src.kp = (((0 : ℝ) : ℂ), ((0 : ℝ) : ℂ)) := by
  obtain ⟨c1, c2, c3, f, h1, h2, hs, ho, h3, -⟩ := example_run exampleLib two_pos true
  exact ⟨_, c1, c2, c3, _, _, _, exampleLib_contract 1, example_fresh 2 true, h1, h2, ho, h3, hs,
    by simp [exampleSource]⟩

/-! ### C15 -/

/-- A layer without loss or gain: real permittivity (at every pixel for a pixmap, of the host and of every
island for an analytical layer). -/
def Form.lossless : Form → Prop
  | .uniform eps => eps.im = 0
  | .fft pix => ∀ x y, (pix.val x y).im = 0
  | .analytical islands host => host.im = 0 ∧ ∀ s ∈ islands, s.eps.im = 0
  | _ => False

/-- A layer that absorbs or is lossless: permittivity with non-positive imaginary part (at every pixel
for a pixmap). -/
def Form.absorbing {N : ℕ} (jv1 : ℝ → ℝ) (e : Expansion N) : Form → Prop
  | .uniform eps => eps.im ≤ 0
  | .fft pix => ∀ x y, (pix.val x y).im ≤ 0
  | .analytical islands host => ∀ C, analyticalC jv1 e islands host = .ok C → AbsorbingMat C
  | _ => False

theorem quad_smul_one (eps : ℂ) (u : Fin N → ℂ) :
    (star u ⬝ᵥ (eps • (1 : Matrix (Fin N) (Fin N) ℂ)) *ᵥ u).im = eps.im * ∑ i, ‖u i‖ ^ 2 := by
  have : star u ⬝ᵥ (eps • (1 : Matrix (Fin N) (Fin N) ℂ)) *ᵥ u = eps * ((∑ i, ‖u i‖ ^ 2 : ℝ) : ℂ) := by
    rw [smul_mulVec, one_mulVec, dotProduct_smul, smul_eq_mul]
    congr 1
    simp only [dotProduct, Pi.star_apply, Complex.ofReal_sum]
    refine Finset.sum_congr rfl fun i _ => ?_
    rw [Complex.star_def, ← Complex.normSq_eq_conj_mul_self, Complex.sq_norm]
  rw [this, Complex.im_mul_ofReal]

theorem absorbing_perm {jv1 : ℝ → ℝ} {e : Expansion N} {f : Form} (h : f.absorbing jv1 e)
    {C : Matrix (Fin N) (Fin N) ℂ} (hC : Permittivity jv1 e f C) : AbsorbingMat C := by
  cases f with
  | uniform eps =>
    intro u
    rw [show C = eps • 1 from hC, quad_smul_one]
    exact mul_nonpos_of_nonpos_of_nonneg h (Finset.sum_nonneg fun _ _ => sq_nonneg _)
  | analytical islands host => exact h C hC
  | halfInc _ => exact h.elim
  | halfTrn _ => exact h.elim
  | fft pix =>
    obtain ⟨tag, pw, rfl, rec, g, sigma⟩ := e
    intro u
    have hC' : C = Matrix.of (fun r c : Fin (pw.1 * pw.2) =>
        fourierCoef pix (diffAt pw.1 r c).1 (diffAt pw.1 r c).2) := by
      ext r c
      rw [hC r c, Matrix.of_apply]
      simp [diffAt]
    rw [hC', quadratic_convolution]
    have hn : ((pix.nx : ℂ) * pix.ny) = (((pix.nx * pix.ny : ℕ) : ℝ) : ℂ) := by push_cast; ring
    rw [hn, Complex.div_ofReal_im]
    refine div_nonpos_of_nonpos_of_nonneg ?_ (by positivity)
    rw [Complex.im_sum]
    refine Finset.sum_nonpos fun x _ => ?_
    rw [Complex.im_sum]
    refine Finset.sum_nonpos fun y _ => ?_
    rw [Complex.im_mul_ofReal]
    exact mul_nonpos_of_nonpos_of_nonneg (h x y) (sq_nonneg _)

theorem lossless_perm {jv1 : ℝ → ℝ} {e : Expansion N} {f : Form} (h : f.lossless)
    {C : Matrix (Fin N) (Fin N) ℂ} (hC : Permittivity jv1 e f C) : LosslessMat C := by
  cases f with
  | uniform eps =>
    intro u
    rw [show C = eps • 1 from hC, quad_smul_one, show eps.im = 0 from h, zero_mul]
  | analytical islands host =>
    intro u
    have hH := analyticalC_hermitian hC h.1 h.2
    have : star (star u ⬝ᵥ C *ᵥ u) = star u ⬝ᵥ C *ᵥ u := by
      rw [← star_dotProduct, star_mulVec, hH.eq, dotProduct_mulVec]
    have h2 := congrArg Complex.im this
    simp only [Complex.star_def, Complex.conj_im] at h2
    linarith
  | halfInc _ => exact h.elim
  | halfTrn _ => exact h.elim
  | fft pix =>
    obtain ⟨tag, pw, rfl, rec, g, sigma⟩ := e
    intro u
    have hC' : C = Matrix.of (fun r c : Fin (pw.1 * pw.2) =>
        fourierCoef pix (diffAt pw.1 r c).1 (diffAt pw.1 r c).2) := by
      ext r c
      rw [hC r c, Matrix.of_apply]
      simp [diffAt]
    rw [hC', quadratic_convolution]
    have hn : ((pix.nx : ℂ) * pix.ny) = (((pix.nx * pix.ny : ℕ) : ℝ) : ℂ) := by push_cast; ring
    rw [hn, Complex.div_ofReal_im, Complex.im_sum]
    simp only [Complex.im_sum, Complex.im_mul_ofReal]
    rw [Finset.sum_eq_zero, zero_div]
    intro x _
    refine Finset.sum_eq_zero fun y _ => ?_
    rw [show (pix.val x y).im = 0 from h x y, zero_mul]

/-- The plane wave of the incident field has unit length, except in the cut-off window of `incident`. -/
theorem incident_waveNorm {a b : ℝ} {k0 er : ℝ} (hk0 : 0 < k0) {inc : Vec2 N} {te tm : ℂ} {kzi : ℂ}
    {kx ky : Fin N → ℝ} {i0 : Fin N} (hi0 : (i0 : ℕ) = (N - 1) / 2) (hx : kx i0 = a / k0)
    (hy : ky i0 = b / k0) (hpos : 0 < er - kx i0 ^ 2 - ky i0 ^ 2)
    (hkz : kzi = star (csqrt ((k0 : ℂ) ^ 2 * er - (a : ℂ) ^ 2 - (b : ℂ) ^ 2)))
    (hab : (a = 0 ∧ b = 0) ∨ (1 / 10 ^ 8) ^ 2 ≤ a ^ 2 + b ^ 2)
    (h : incident N te tm ⟨a, b, kzi⟩ = .ok inc) :
    waveNorm kx ky (fun i => outerKz (er - kx i ^ 2 - ky i ^ 2)) inc i0 = 1 := by
  have e1 : kzi = k0 * outerKz (er - kx i0 ^ 2 - ky i0 ^ 2) := by
    rw [hkz, ← outerKz_mul_sq hk0, ← star_csqrt_ofReal, hx, hy]
    have : (k0 : ℂ) ≠ 0 := by exact_mod_cast hk0.ne'
    push_cast
    congr 2
    field_simp
  rw [outerKz_pos hpos] at e1
  set s := Real.sqrt (er - kx i0 ^ 2 - ky i0 ^ 2) with hs
  have hs0 : 0 < s := Real.sqrt_pos.2 hpos
  have e2 : kzi = ((k0 * s : ℝ) : ℂ) := by rw [e1]; push_cast; rfl
  rw [e2] at h
  obtain ⟨p, hpx, hpy, ht, hn⟩ := C17_unit_transverse_partial (by positivity) hab h i0 hi0
  unfold waveNorm
  simp only
  rw [outerKz_pos hpos, ← hs, hpx, hpy, hx, hy]
  have : -((a / k0 : ℝ) * p.x + (b / k0 : ℝ) * p.y) / (s : ℂ) = p.z := by
    have h1 : (k0 : ℂ) ≠ 0 := by exact_mod_cast hk0.ne'
    have h2 : (s : ℂ) ≠ 0 := by exact_mod_cast hs0.ne'
    push_cast at ht ⊢
    field_simp
    linear_combination -ht
  rw [this, hn]

/-- Energy balance of a solved device. -/
theorem crystal_energy (he : EigContract (lib.eig N)) (hb : Built c.expansion)
    (hc : FreshDevice c stack m Ls er et)
    (h1 : c.setDevice stack m = .ok c1) (h2 : c1.setSource wl te tm theta phi kpo = .ok c2)
    (ho : SetOrder ("Sref" :: (stack ++ ["Strans"])) order) (h3 : c2.solve lib order = .ok c3)
    (hwl : 0 < wl) {src : Source} (hs : c2.source = some src) {kp : ℝ × ℝ}
    (hkp : src.kp = (↑kp.1, ↑kp.2))
    (hcut : (kp.1 = 0 ∧ kp.2 = 0) ∨ (1 / 10 ^ 8) ^ 2 ≤ kp.1 ^ 2 + kp.2 ^ 2)
    {f : Crystal.Fluxes N} (hf : c3.poyntingFluxEnd = .ok f) :
    ∃ (Ms : List (Mat2 N × Mat2 N × ℝ)) (F G : Tang (Fin N ⊕ Fin N)) (κ : ℝ), 0 < κ ∧
      LayerEquations lib.jv1 c.expansion (orderKx c.expansion kp wl) (orderKy c.expansion kp wl)
        (2 * Real.pi / wl) Ls Ms ∧ MaxwellChain Ms F G ∧
      fluxZ F = κ * (1 - f.R) ∧ fluxZ G = κ * f.T := by
  obtain ⟨lr, lt, Ls', k, hd, hL, hexp, hi, hie, hwl', hk, hsrc, -⟩ := fresh_standard hc h1 h2
  have hcen : Centered c2.expansion := by
    rw [hexp]
    obtain ⟨hodd, hmid⟩ := C25_specular_middle hb
    exact ⟨Nat.odd_iff.1 hodd, fun i hi => hmid i (by rw [Nat.odd_iff] at hodd; omega)⟩
  have hs' := hsrc
  rw [hs, Option.some.injEq] at hs'
  have hw : src.wavelength = wl := by rw [hs']
  have hks : src.kp = k := by rw [hs']
  have hkz : src.kzi = star (csqrt (((2 * Real.pi / wl : ℝ) : ℂ) ^ 2 * er - k.1 ^ 2 - k.2 ^ 2)) := by
    rw [hs']
  obtain ⟨inc, i0, Ms, p, q, hi0, hx, hy, hinc, hM, hp, hq, hch, hpos, hF, hG⟩ :=
    energy_balance he hcen hd hi hie ho h3 hs hkp (by rw [hw]; exact hwl) hf
  rw [hexp, hw] at hx hy hM hch hpos hF hG
  rw [hkp] at hinc hks
  rw [← hks] at hkz
  have hk0 : 0 < 2 * Real.pi / wl := by have := Real.pi_pos; positivity
  rw [incident_waveNorm hk0 hi0 hx hy hpos hkz hcut hinc] at hF
  exact ⟨Ms, _, _, _, Real.sqrt_pos.2 hpos, layerEquations_congr hL hM, hch, hF, hG⟩

/-- **C15.** Energy conservation: `R + T = 1` for a device of lossless layers between two media of real
permittivity, at a real in-plane wave vector (outside the cut-off window of C17, where the incident
wave itself is not exactly of unit length). -/
theorem C15_energy_conserved (he : EigContract (lib.eig N)) (hb : Built c.expansion)
    (hc : FreshDevice c stack m Ls er et) (hL : ∀ l ∈ Ls, l.form.lossless)
    (h1 : c.setDevice stack m = .ok c1) (h2 : c1.setSource wl te tm theta phi kpo = .ok c2)
    (ho : SetOrder ("Sref" :: (stack ++ ["Strans"])) order) (h3 : c2.solve lib order = .ok c3)
    (hwl : 0 < wl) {src : Source} (hs : c2.source = some src) {kp : ℝ × ℝ}
    (hkp : src.kp = (↑kp.1, ↑kp.2))
    (hcut : (kp.1 = 0 ∧ kp.2 = 0) ∨ (1 / 10 ^ 8) ^ 2 ≤ kp.1 ^ 2 + kp.2 ^ 2)
    {f : Crystal.Fluxes N} (hf : c3.poyntingFluxEnd = .ok f) : f.R + f.T = 1 := by
  obtain ⟨Ms, F, G, κ, hκ, hM, hch, hF, hG⟩ := crystal_energy he hb hc h1 h2 ho h3 hwl hs hkp hcut hf
  have := fluxZ_chain_eq hM (fun l hl C hC => lossless_perm (hL l hl) hC) hch
  rw [hF, hG] at this
  have := mul_left_cancel₀ hκ.ne' this
  linarith

/-- **C15.** `R + T ≤ 1` when layers of non-negative depth absorb. -/
theorem C15_energy_absorbed (he : EigContract (lib.eig N)) (hb : Built c.expansion)
    (hc : FreshDevice c stack m Ls er et)
    (hL : ∀ l ∈ Ls, 0 ≤ l.depth ∧ l.form.absorbing lib.jv1 c.expansion)
    (h1 : c.setDevice stack m = .ok c1) (h2 : c1.setSource wl te tm theta phi kpo = .ok c2)
    (ho : SetOrder ("Sref" :: (stack ++ ["Strans"])) order) (h3 : c2.solve lib order = .ok c3)
    (hwl : 0 < wl) {src : Source} (hs : c2.source = some src) {kp : ℝ × ℝ}
    (hkp : src.kp = (↑kp.1, ↑kp.2))
    (hcut : (kp.1 = 0 ∧ kp.2 = 0) ∨ (1 / 10 ^ 8) ^ 2 ≤ kp.1 ^ 2 + kp.2 ^ 2)
    {f : Crystal.Fluxes N} (hf : c3.poyntingFluxEnd = .ok f) : f.R + f.T ≤ 1 := by
  obtain ⟨Ms, F, G, κ, hκ, hM, hch, hF, hG⟩ := crystal_energy he hb hc h1 h2 ho h3 hwl hs hkp hcut hf
  have hk0 : 0 < 2 * Real.pi / wl := by have := Real.pi_pos; positivity
  have := fluxZ_chain_le hM (fun l hl => ⟨mul_nonneg (hL l hl).1 hk0.le,
    fun C hC => absorbing_perm (hL l hl).2 hC⟩) hch
  rw [hF, hG] at this
  have := le_of_mul_le_mul_left this hκ
  linarith

/-- **C15**, sources given by angles: with a non-negative incidence permittivity the in-plane wave
vector of `set_source(wl, te, tm, theta, phi)` is real. -/
theorem C15_angles_real (her : 0 ≤ er) (hc : FreshDevice c stack m Ls er et)
    (h1 : c.setDevice stack m = .ok c1) (h2 : c1.setSource wl te tm theta phi none = .ok c2) :
    ∃ (src : Source) (kp : ℝ × ℝ), c2.source = some src ∧ src.kp = (↑kp.1, ↑kp.2) ∧
      kp = (Real.cos (phi * (Real.pi / 180)) * (Real.sqrt er * 2 * Real.pi / wl *
          Real.sin (theta * (Real.pi / 180))),
        Real.sin (phi * (Real.pi / 180)) * (Real.sqrt er * 2 * Real.pi / wl *
          Real.sin (theta * (Real.pi / 180)))) := by
  obtain ⟨lr, lt, Ls', k, hd, hL, hexp, hi, hie, hwl', hk, hsrc, -⟩ := fresh_standard hc h1 h2
  refine ⟨_, _, hsrc, ?_, rfl⟩
  simp only [Crystal.orDefault, computeKplanar, hwl', if_false, pure, Except.pure,
    Except.ok.injEq] at hk
  rw [← hk, csqrt_ofReal_nonneg her]
  push_cast
  rfl

/-- Non-vacuity of C15: the same device has all its fluxes, and no loss. -/
example : ∃ (c1 c2 c3 : Crystal 1) (f : Crystal.Fluxes 1), Built (exampleCrystal 2).expansion ∧
    (exampleCrystal 2).setDevice ["a"] (.inl true) = .ok c1 ∧ c1.setSource 1 1 0 0 0 none = .ok c2 ∧
    SetOrder ("Sref" :: (["a"] ++ ["Strans"])) ["Sref", "a", "Strans"] ∧
    c2.solve exampleLib ["Sref", "a", "Strans"] = .ok c3 ∧ c3.poyntingFluxEnd = .ok f ∧
    (∀ l ∈ [Layer.uniform exampleExpansion 4 (1 / 4)],
      l.form.lossless) ∧ f.R + f.T = 1 := by
  obtain ⟨c1, c2, c3, f, h1, h2, hs, ho, h3, hf⟩ := example_run exampleLib two_pos true
  have hl : ∀ l ∈ [Layer.uniform exampleExpansion 4 (1 / 4)],
      l.form.lossless := by
    simp [Layer.uniform, Form.lossless]
  exact ⟨c1, c2, c3, f, exampleExpansion_built, h1, h2, ho, h3, hf, hl,
    C15_energy_conserved (exampleLib_contract 1) exampleExpansion_built (example_fresh 2 true) hl h1 h2 ho
      h3 one_pos hs (kp := (0, 0)) (by simp [exampleSource]) (Or.inl ⟨rfl, rfl⟩) hf⟩

end

/-! ### C16 -/

/-- **C16.** Whatever the device, source and media (complex ones included), every reported flux is
non-negative. -/
theorem C16_nonneg {c : Crystal N} {f : Crystal.Fluxes N} (h : c.poyntingFluxEnd = .ok f) :
    0 ≤ f.R ∧ 0 ≤ f.T ∧ (∀ i, 0 ≤ f.Rg i) ∧ ∀ i, 0 ≤ f.Tg i := by
  have key : ∀ {e : Expansion N} {v : Vec2 N} {kp : ℂ × ℂ} {wl : ℝ} {a b : ℂ} {r : ℝ × (Fin N → ℝ)},
      poyntingFluxes e v kp wl a b = .ok r → 0 ≤ r.1 ∧ ∀ i, 0 ≤ r.2 i := by
    intro e v kp wl a b r h
    obtain ⟨-, kx, ky, kz, hk, -, -, h2, h1⟩ := poyntingFluxes_eq_ok.1 h
    have h2' : ∀ i, 0 ≤ r.2 i := by
      intro i
      rw [h2]
      refine mul_nonneg ?_ (by positivity)
      obtain ⟨-, -, -, hz⟩ := kVectors_eq_ok.1 hk
      simp only at hz
      rw [hz]
      simp only [kzFromKplanar]
      rw [Complex.div_ofReal_re, Complex.div_ofReal_re]
      have a1 := csqrt_re_nonneg (((2 * Real.pi / wl : ℝ) : ℂ) ^ 2 * star b -
        (kp.1 + ((e.g i).1 : ℂ)) ^ 2 - (kp.2 + ((e.g i).2 : ℂ)) ^ 2)
      have a2 := csqrt_re_nonneg (((2 * Real.pi / wl : ℝ) : ℂ) ^ 2 * a - kp.1 ^ 2 - kp.2 ^ 2)
      simp only [Complex.star_def, Complex.conj_re] at a1 a2 ⊢
      rcases le_or_gt 0 (2 * Real.pi / wl) with hk0 | hk0
      · exact div_nonneg (div_nonneg a1 hk0) (div_nonneg a2 hk0)
      · exact div_nonneg_of_nonpos (div_nonpos_of_nonneg_of_nonpos a1 hk0.le)
          (div_nonpos_of_nonneg_of_nonpos a2 hk0.le)
    exact ⟨by rw [h1]; exact Finset.sum_nonneg fun i _ => h2' i, h2'⟩
  obtain ⟨st, src, inc, ref, tr, Wref, Wtrans, T, R, -, -, -, -, -, -, -, -, hT, hR, rfl⟩ :=
    Crystal.poyntingFluxEnd_eq_ok.1 h
  exact ⟨(key hR).1, (key hT).1, (key hR).2, (key hT).2⟩

/-- **C16.** Total fluxes are the sums over the orders. -/
theorem C16_total {c : Crystal N} {f : Crystal.Fluxes N} (h : c.poyntingFluxEnd = .ok f) :
    f.R = ∑ i, f.Rg i ∧ f.T = ∑ i, f.Tg i := by
  obtain ⟨st, src, inc, ref, tr, Wref, Wtrans, T, R, -, -, -, -, -, -, -, -, hT, hR, rfl⟩ :=
    Crystal.poyntingFluxEnd_eq_ok.1 h
  obtain ⟨-, _, _, _, -, -, -, -, h1⟩ := poyntingFluxes_eq_ok.1 hT
  obtain ⟨-, _, _, _, -, -, -, -, h2⟩ := poyntingFluxes_eq_ok.1 hR
  exact ⟨h2, h1⟩

/-- A user's run: set the source, solve, ask for the fluxes. -/
noncomputable def fluxesFor (lib : NumLib) (order : List String) (c : Crystal N) (wl : ℝ) (te tm : ℂ)
    (theta phi : ℝ) (kp : Option (ℂ × ℂ)) : Py (Crystal.Fluxes N) := do
  let c1 ← c.setSource wl te tm theta phi kp
  let c2 ← c1.solve lib order
  c2.poyntingFluxEnd

/-- **C16.** Multiplying both polarisation amplitudes by a non-zero complex number changes nothing —
neither the fluxes nor the exceptions. -/
theorem C16_scale (lib : NumLib) (order : List String) (c : Crystal N) (wl : ℝ) (te tm : ℂ)
    (theta phi : ℝ) (kp : Option (ℂ × ℂ)) {a : ℂ} (ha : a ≠ 0) :
    fluxesFor lib order c wl (a * te) (a * tm) theta phi kp =
      fluxesFor lib order c wl te tm theta phi kp := by
  unfold fluxesFor Crystal.setSource
  cases hk : Crystal.orDefault kp (computeKplanar c.epsi wl theta phi) with
  | error x => rfl
  | ok k =>
    by_cases hwl : wl = 0
    · simp only [hwl, if_true, throw, throwThe, MonadExceptOf.throw, error_bind, ok_bind]
    · simp only [hwl, if_false, ok_bind, pure, Except.pure]
      set s1 : Source := ⟨te, tm, theta, phi, wl, k,
        star (csqrt (((2 * Real.pi / wl : ℝ) : ℂ) ^ 2 * c.epsi - k.1 ^ 2 - k.2 ^ 2))⟩ with hs1
      set s2 : Source := { s1 with te := a * te, tm := a * tm } with hs2
      rw [show Crystal.solve lib order { c with source := some s2 } =
        (Crystal.solve lib order { c with source := some s1 }).map fun x => { x with source := some s2 }
        from Crystal.solve_source c rfl rfl]
      cases hsol : Crystal.solve lib order { c with source := some s1 } with
      | error x => rfl
      | ok c2 =>
        show Crystal.poyntingFluxEnd { c2 with source := some s2 } = c2.poyntingFluxEnd
        have hsrc : c2.source = some s1 := Crystal.solve_keeps_source hsol
        exact Crystal.poyntingFluxEnd_scale hsrc ha

/-- Non-vacuity of C16: fluxes exist. -/
example : ∃ (c : Crystal 1) (f : Crystal.Fluxes 1), c.poyntingFluxEnd = .ok f := by
  obtain ⟨c1, c2, c3, f, h1, h2, hs, ho, h3, hf⟩ := example_run exampleLib two_pos true
  exact ⟨c3, f, hf⟩

end Khepri
