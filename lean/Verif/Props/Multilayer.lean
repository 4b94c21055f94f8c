import Verif.Lemmas.MultilayerFlux
import Verif.Lemmas.ExampleEmpty

/-!
# Property C70: stacks of uniform layers
-/

namespace Khepri

open Matrix

variable {N : ℕ}

section
variable {lib : NumLib} {order : List String} {c c1 c2 c3 : Crystal N} {stack : List String}
  {m : Bool ⊕ List Bool} {Ls : List (Layer N)} {er et : ℝ} {wl : ℝ} {te tm : ℂ} {theta phi : ℝ}
  {kpo : Option (ℂ × ℂ)}

/-- **C70.** A stack of uniform layers, of any permittivities (complex ones included) and depths, sends a polarised
plane wave of any order into the waves of the same order and polarisation with the amplitudes given by the
characteristic matrices of its layers (Fresnel's coefficients when there is no layer). -/
theorem C70_coefficients (he : EigContract (lib.eig N)) (hc : FreshDevice c stack m Ls er et)
    (h1 : c.setDevice stack m = .ok c1) (h2 : c1.setSource wl te tm theta phi kpo = .ok c2)
    (ho : SetOrder ("Sref" :: (stack ++ ["Strans"])) order) (h3 : c2.solve lib order = .ok c3)
    {src : Source} (hs : c2.source = some src) {kp : ℝ × ℝ} (hkp : src.kp = (↑kp.1, ↑kp.2))
    {data : List (ℂ × ℝ)} (hd : List.Forall₂ (fun l x => l.form = .uniform x.1 ∧ l.depth = x.2) Ls data)
    (i : Fin N) {κ2 : ℝ} (hκ : κ2 = orderKx c.expansion kp wl i ^ 2 + orderKy c.expansion kp wl i ^ 2)
    (hg : ∀ x ∈ data, x.1 ≠ κ2) (pol : Polarisation) {u : ℂ × ℂ}
    (hp : pol.Holds (orderKx c.expansion kp wl i) (orderKy c.expansion kp wl i) u) :
    ∃ st, c3.stacked = some st ∧ (u ≠ 0 → stackDenominator pol κ2 (2 * Real.pi / wl) data er et ≠ 0) ∧
      st.Stot.s11 *ᵥ orderWave i u = reflection pol κ2 (2 * Real.pi / wl) data er et • orderWave i u ∧
      st.Stot.s21 *ᵥ orderWave i u = transmission pol κ2 (2 * Real.pi / wl) data er et • orderWave i u := by
  obtain ⟨hr, ht, hr0⟩ := outer_not_grazing hc h1 h2 ho h3 hs hkp
  obtain ⟨st, Ms, hst, hM, hS⟩ := C12_crystal he hc h1 h2 ho h3 hs hkp
  refine ⟨st, hst, ?_⟩
  subst hκ
  have hch := pol_chain hM hd hp hg
    ![1, outerAdmittance pol (orderKx c.expansion kp wl i ^ 2 + orderKy c.expansion kp wl i ^ 2) et]
  exact pol_scatters hp (hr i) (ht i) hr0 hS hch

/-- **C70.** The reflectance and transmittance reported for a stack of uniform layers are the textbook ones: `|r|²` and
`Re ηt / Re η0 |t|²` of the two polarisations, weighted by the powers asked of the source. -/
theorem C70_fluxes (he : EigContract (lib.eig N)) (hb : Built c.expansion)
    (hc : FreshDevice c stack m Ls er et)
    (h1 : c.setDevice stack m = .ok c1) (h2 : c1.setSource wl te tm theta phi kpo = .ok c2)
    (ho : SetOrder ("Sref" :: (stack ++ ["Strans"])) order) (h3 : c2.solve lib order = .ok c3)
    (hwl : 0 < wl) {src : Source} (hs : c2.source = some src) {kp : ℝ × ℝ}
    (hkp : src.kp = (↑kp.1, ↑kp.2))
    (hcut : (kp.1 = 0 ∧ kp.2 = 0) ∨ (1 / 10 ^ 8) ^ 2 ≤ kp.1 ^ 2 + kp.2 ^ 2)
    {data : List (ℂ × ℝ)} (hd : List.Forall₂ (fun l x => l.form = .uniform x.1 ∧ l.depth = x.2) Ls data)
    {κ2 : ℝ} (hκ : κ2 = (kp.1 / (2 * Real.pi / wl)) ^ 2 + (kp.2 / (2 * Real.pi / wl)) ^ 2)
    (hg : ∀ x ∈ data, x.1 ≠ κ2)
    {f : Crystal.Fluxes N} (hf : c3.poyntingFluxEnd = .ok f) :
    f.R = (‖te‖ ^ 2 * ‖reflection .te κ2 (2 * Real.pi / wl) data er et‖ ^ 2 +
        ‖tm‖ ^ 2 * ‖reflection .tm κ2 (2 * Real.pi / wl) data er et‖ ^ 2) / (‖te‖ ^ 2 + ‖tm‖ ^ 2) ∧
    f.T = (‖te‖ ^ 2 * ((outerAdmittance .te κ2 et).re / (outerAdmittance .te κ2 er).re *
          ‖transmission .te κ2 (2 * Real.pi / wl) data er et‖ ^ 2) +
        ‖tm‖ ^ 2 * ((outerAdmittance .tm κ2 et).re / (outerAdmittance .tm κ2 er).re *
          ‖transmission .tm κ2 (2 * Real.pi / wl) data er et‖ ^ 2)) / (‖te‖ ^ 2 + ‖tm‖ ^ 2) :=
  uniform_fluxes he hb hc h1 h2 ho h3 hwl hs hkp hcut hd hκ hg hf

/-- **C70.** A bare interface at normal incidence: Fresnel's formulas for the powers, whatever the polarisation. -/
theorem C70_interface (he : EigContract (lib.eig N)) (hb : Built c.expansion)
    (hc : FreshDevice c [] m [] er et)
    (h1 : c.setDevice [] m = .ok c1) (h2 : c1.setSource wl te tm theta phi kpo = .ok c2)
    (ho : SetOrder ["Sref", "Strans"] order) (h3 : c2.solve lib order = .ok c3)
    (hwl : 0 < wl) {src : Source} (hs : c2.source = some src) (hkp : src.kp = (0, 0)) (hr : 0 < er) (ht : 0 < et)
    {f : Crystal.Fluxes N} (hf : c3.poyntingFluxEnd = .ok f) :
    f.R = ((Real.sqrt er - Real.sqrt et) / (Real.sqrt er + Real.sqrt et)) ^ 2 ∧
    f.T = 4 * Real.sqrt er * Real.sqrt et / (Real.sqrt er + Real.sqrt et) ^ 2 := by
  have hkp' : src.kp = ((((0, 0) : ℝ × ℝ).1 : ℂ), (((0, 0) : ℝ × ℝ).2 : ℂ)) := by simp [hkp]
  obtain ⟨hn, -⟩ : 0 < ‖te‖ ^ 2 + ‖tm‖ ^ 2 ∧ True := by
    refine ⟨?_, trivial⟩
    obtain ⟨-, src', inc, -, -, -, -, -, -, -, g2, g3, -⟩ := Crystal.poyntingFluxEnd_eq_ok.1 hf
    obtain ⟨-, g4, -⟩ := incident_eq_ok.1 g3
    have hsr : src'.te = te ∧ src'.tm = tm := by
      obtain ⟨_, _, _, _, hd, -, -, -, -, -, -, hsrc, -⟩ := fresh_standard hc h1 h2
      obtain ⟨_, _, _, _, _, _, _, _, _, h⟩ := solvedDevice hd ho h3
      rw [h.rest'] at g2
      have g2 : c2.source = some src' := g2
      rw [hsrc, Option.some.injEq] at g2
      rw [← g2]; exact ⟨rfl, rfl⟩
    rw [hsr.1, hsr.2] at g4
    have := Real.sq_sqrt (show 0 ≤ ‖te‖ ^ 2 + ‖tm‖ ^ 2 by positivity)
    rw [← this]
    have : Real.sqrt (‖te‖ ^ 2 + ‖tm‖ ^ 2) ≠ 0 := g4
    positivity
  obtain ⟨hR, hT⟩ := C70_fluxes he hb hc h1 h2 ho h3 hwl hs hkp' (.inl ⟨rfl, rfl⟩) (data := []) .nil
    (κ2 := 0) (by simp) (by simp) hf
  have hsr := Real.sqrt_pos.2 hr
  have hst := Real.sqrt_pos.2 ht
  have qr := Real.mul_self_sqrt hr.le
  have qt := Real.mul_self_sqrt ht.le
  have a : ∀ (pol : Polarisation) {x : ℝ}, 0 < x → outerAdmittance pol 0 x = (Real.sqrt x : ℂ) := by
    intro pol x hx
    have h0 : (Real.sqrt x : ℂ) ≠ 0 := by exact_mod_cast (Real.sqrt_pos.2 hx).ne'
    cases pol
    · simp [outerAdmittance, Polarisation.admittance, outerKz_pos hx]
    · simp only [outerAdmittance, Polarisation.admittance, sub_zero, outerKz_pos hx]
      rw [div_eq_iff h0]
      exact_mod_cast (Real.mul_self_sqrt hx.le).symm
  have b : ∀ pol : Polarisation, reflection pol 0 (2 * Real.pi / wl) [] er et =
      (((Real.sqrt er - Real.sqrt et) / (Real.sqrt er + Real.sqrt et) : ℝ) : ℂ) := by
    intro pol
    simp [reflection, stackDenominator, stackFields, abeles, a pol hr, a pol ht]
  have d : ∀ pol : Polarisation, transmission pol 0 (2 * Real.pi / wl) [] er et =
      ((2 * Real.sqrt er / (Real.sqrt er + Real.sqrt et) : ℝ) : ℂ) := by
    intro pol
    simp [transmission, stackDenominator, stackFields, abeles, a pol hr, a pol ht]
  rw [hR, hT]
  simp only [a _ hr, a _ ht, b, d, Complex.ofReal_re, Complex.norm_real, Real.norm_eq_abs, sq_abs]
  constructor
  · field_simp
  · field_simp
    ring

end

/-- The hypotheses of `C70_interface` hold for vacuum on both sides. -/
example : ∃ (c1 c2 c3 : Crystal 1) (src : Source) (f : Crystal.Fluxes 1),
    FreshDevice (exampleCrystal 1) [] (.inl true) [] ((1 : ℝ) : ℂ) ((1 : ℝ) : ℂ) ∧
    (exampleCrystal 1).setDevice [] (.inl true) = .ok c1 ∧ c1.setSource 1 1 2 0 0 (some (0, 0)) = .ok c2 ∧
    SetOrder ["Sref", "Strans"] ["Sref", "Strans"] ∧ c2.solve exampleLib ["Sref", "Strans"] = .ok c3 ∧
    c2.source = some src ∧ src.kp = (0, 0) ∧ c3.poyntingFluxEnd = .ok f := by
  obtain ⟨c1, c2, c3, h1, h2, hs, ho, h3, hexp, hs3, hi, hie, hl, -, st, hst, -⟩ :=
    empty_solve exampleLib (κ := 0) (by norm_num) 1 2 true
  simp only [mul_zero, Complex.ofReal_zero] at h2
  have hk : exampleExpansion.kVectors (0, 0) 1 1 = .ok (0, 0, fun _ => 1) := by
    have hpi : (Real.pi : ℂ) ≠ 0 := by exact_mod_cast Real.pi_ne_zero
    refine kVectors_eq_ok.2 ⟨one_ne_zero, ?_, ?_, ?_⟩
    · funext i; simp [exampleExpansion]
    · funext i; simp [exampleExpansion]
    · funext i
      have : csqrt ((2 * Real.pi) ^ 2 : ℂ) = 2 * Real.pi := by
        have := csqrt_sq_pos (s := 2 * Real.pi) (by have := Real.pi_pos; positivity)
        simpa using this
      simp [exampleExpansion, kzFromKplanar, this]
  have hp : ∀ v : Vec2 1, ∃ r, poyntingFluxes exampleExpansion v (0, 0) 1 1 1 = .ok r := by
    intro v
    have key : ∀ (F : ℝ × (Fin 1 → ℝ) → Prop) (g : Fin 1 → ℝ), (∀ r, r.2 = g → r.1 = ∑ i, r.2 i → F r) →
        ∃ r, F r := fun F g h => ⟨(∑ i, g i, g), h _ rfl rfl⟩
    refine key _ _ fun r e2 e1 => poyntingFluxes_eq_ok.2 ⟨one_ne_zero, _, _, _, hk, fun _ => one_ne_zero, ?_, e2, e1⟩
    have : csqrt ((2 * Real.pi) ^ 2 : ℂ) = 2 * Real.pi := by
      have := csqrt_sq_pos (s := 2 * Real.pi) (by have := Real.pi_pos; positivity)
      simpa using this
    have hpc : (Real.pi : ℂ) ≠ 0 := by exact_mod_cast Real.pi_ne_zero
    simp [this, hpc]
  obtain ⟨inc, hinc⟩ : ∃ inc, incident 1 1 2 ⟨(obliqueSource 0 1 2).kp.1, (obliqueSource 0 1 2).kp.2, (obliqueSource 0 1 2).kzi⟩ =
      .ok inc :=
    ⟨_, incident_eq_ok.2 ⟨one_pos, (Real.sqrt_pos.2 (by norm_num)).ne', _, _, polarisations_small (by simp [obliqueSource]), rfl⟩⟩
  obtain ⟨lr, er, -, wr, -⟩ := hl "Sref" (by simp)
  obtain ⟨lt, et, -, wt, -⟩ := hl "Strans" (by simp)
  obtain ⟨T, hT⟩ := hp ((1 * st.Stot.s21) *ᵥ ((1 : Mat2 1)⁻¹ *ᵥ inc))
  obtain ⟨R, hR⟩ := hp ((1 * st.Stot.s11) *ᵥ ((1 : Mat2 1)⁻¹ *ᵥ inc))
  refine ⟨c1, c2, c3, _, _, empty_fresh true, h1, h2, ho, h3, hs, by simp [obliqueSource], Crystal.poyntingFluxEnd_eq_ok.2
    ⟨st, _, inc, _, _, 1, 1, T, R, hst, hs3, hinc, er, wr, by simp, et, wt, ?_, ?_, rfl⟩⟩
  · rw [hexp, hi, hie]; simpa [obliqueSource] using hT
  · rw [hexp, hi]; simpa [obliqueSource] using hR

/-- The hypotheses of C70 hold: the plate of permittivity 4, a quarter of a wavelength thick, before a medium of index 2. -/
example : ∃ (c c1 c2 c3 : Crystal 1) (Ls : List (Layer 1)) (order : List String) (src : Source) (f : Crystal.Fluxes 1)
    (data : List (ℂ × ℝ)),
    EigContract (exampleLib.eig 1) ∧ Built c.expansion ∧
    FreshDevice c ["a"] (.inl true) Ls ((1 : ℝ) : ℂ) ((2 ^ 2 : ℝ) : ℂ) ∧
    c.setDevice ["a"] (.inl true) = .ok c1 ∧ c1.setSource 1 1 0 0 0 none = .ok c2 ∧
    SetOrder ("Sref" :: (["a"] ++ ["Strans"])) order ∧ c2.solve exampleLib order = .ok c3 ∧
    c2.source = some src ∧ src.kp = (((0 : ℝ) : ℂ), ((0 : ℝ) : ℂ)) ∧ c3.poyntingFluxEnd = .ok f ∧
    List.Forall₂ (fun l x => l.form = .uniform x.1 ∧ l.depth = x.2) Ls data ∧ (∀ x ∈ data, x.1 ≠ ((0 : ℝ) : ℂ)) ∧
    Polarisation.te.Holds (orderKx c.expansion (0, 0) 1 0) (orderKy c.expansion (0, 0) 1 0) (1, 0) := by
  obtain ⟨c1, c2, c3, f, h1, h2, hs, ho, h3, hf⟩ := example_run exampleLib two_pos true
  exact ⟨_, c1, c2, c3, _, _, _, f, [(4, 1 / 4)], exampleLib_contract 1, exampleExpansion_built, example_fresh 2 true, h1, h2,
    ho, h3, hs, by simp [exampleSource], hf, .cons ⟨rfl, rfl⟩ .nil, by simp,
    by simp [Polarisation.Holds, orderKx, exampleCrystal, exampleExpansion]⟩

/-- The formulas on that plate: half a wavelength thick in its own medium, it leaves the reflection of the bare interface,
`(1 - 2) / (1 + 2)`, unchanged. -/
example : reflection .te 0 (2 * Real.pi) [(4, 1 / 4)] 1 4 = -(1 / 3) := by
  have h4 : (4 : ℂ) ^ (1 / 2 : ℂ) = 2 := by
    rw [show (4 : ℂ) = 2 ^ 2 by norm_num]
    have := csqrt_sq_pos two_pos
    simpa [csqrt] using this
  have e : (2 : ℂ) * (4⁻¹ * (2 * Real.pi)) = Real.pi := by ring
  have r1 : outerKz 1 = 1 := by simp [outerKz]
  have r4 : outerKz 4 = 2 := by
    have : Real.sqrt 4 = 2 := by rw [show (4 : ℝ) = 2 ^ 2 by norm_num]; simp
    simp [outerKz, this]
  have h4' : (4 : ℂ) ^ (2 : ℂ)⁻¹ = 2 := by rw [← one_div]; exact h4
  simp [reflection, stackDenominator, stackFields, abeles, charMatrix, outerAdmittance, Polarisation.admittance, layerKz, h4',
    e, r1, r4, Matrix.mulVec, dotProduct, Fin.sum_univ_two]
  norm_num

end Khepri
