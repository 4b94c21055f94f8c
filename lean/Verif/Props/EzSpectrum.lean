import Verif.Lemmas.EzSpectrum
import Verif.Props.Ez
import Verif.Props.TmatFresnel
import Mathlib.Analysis.Real.Pi.Bounds

/-!
# C83: spectra of project files
-/

namespace Khepri

open Matrix Complex

/-- **C53.** The lattice of a project: reciprocal vectors dual to the vectors of the project times the lattice constant, orders
numbered from the lowest in both directions, the area of the cell, and the permittivities of the half spaces. -/
theorem C53_lattice {cfg : EzConfig} {l : TLattice} (h : ezLattice cfg = .ok l) :
    (∃ ei ee, cfg.materials cfg.incident = some ei ∧ cfg.materials cfg.substrate = some ee ∧ l.epsI = .float ei ∧ l.epsE = .float ee) ∧
    cfg.a * (l.b.1.1 * cfg.a1.1 + l.b.1.2 * cfg.a1.2) = 2 * Real.pi ∧ cfg.a * (l.b.1.1 * cfg.a2.1 + l.b.1.2 * cfg.a2.2) = 0 ∧
    cfg.a * (l.b.2.1 * cfg.a1.1 + l.b.2.2 * cfg.a1.2) = 0 ∧ cfg.a * (l.b.2.1 * cfg.a2.1 + l.b.2.2 * cfg.a2.2) = 2 * Real.pi ∧
    l.area = cfg.a ^ 2 * |cfg.a1.1 * cfg.a2.2 - cfg.a1.2 * cfg.a2.1| ∧
    ∀ i j, l.gx i j = l.b.1.1 * ((i : ℝ) - (cfg.pw.1 / 2 : ℕ)) + l.b.2.1 * ((j : ℝ) - (cfg.pw.2 / 2 : ℕ)) ∧
      l.gy i j = l.b.1.2 * ((i : ℝ) - (cfg.pw.1 / 2 : ℕ)) + l.b.2.2 * ((j : ℝ) - (cfg.pw.2 / 2 : ℕ)) := by
  obtain ⟨ei, ee, m1, m2, hm⟩ := ezLattice_eq_ok.1 h
  obtain ⟨-, -, hb, har, e1, e2⟩ := TLattice.make_fields hm
  obtain ⟨hd, hb⟩ := reciproc_eq_ok.1 hb
  refine ⟨⟨ei, ee, m1, m2, e1, e2⟩, ?_, ?_, ?_, ?_, ?_, TLattice.make_gx hm⟩
  all_goals simp only at hd
  · rw [hb]; simp only; rw [← mul_div_cancel_right₀ (2 * Real.pi) hd]; field_simp; ring
  · rw [hb]; simp only; ring
  · rw [hb]; simp only; ring
  · rw [hb]; simp only; rw [← mul_div_cancel_right₀ (2 * Real.pi) hd]; field_simp; ring
  · rw [har, unitCellArea, ← abs_of_nonneg (sq_nonneg cfg.a), ← abs_mul]; simp only; congr 1; ring

/-- Non-vacuity of C53_lattice. -/
example : ∃ l, ezLattice vacuumProject = .ok l := by
  obtain ⟨l, h, -⟩ := unit_tlattice (3, 3) rfl (.float 1) (.float 1)
  refine ⟨l, ?_⟩
  simp only [ezLattice, vacuumProject, pyKey, if_true, ok_bind, mul_one]
  exact h

section C83
variable {jv1 : ℝ → ℝ} {cfg : EzConfig} {fuel m : ℕ} {st : EzStudy} {device : String} {rows : List EzRow} {L : List String}

/-- **C83.** One row per triple of angles and frequency, the frequency running fastest, then theta, then phi; sweeps include
both ends; wavelengths are `a / frequency`; reflectance and transmittance are not negative and, with the absorption, add up
to 1. -/
theorem C83_rows (h : ezSpectrum jv1 cfg fuel st device = .ok rows) :
    rows.length = st.phi.steps * st.theta.steps * st.frequency.steps ∧
    ∀ i j k, i < st.phi.steps → j < st.theta.steps → k < st.frequency.steps →
      ∃ r, rows[(i * st.theta.steps + j) * st.frequency.steps + k]? = some r ∧
        SweepAt st.phi.start st.phi.stop st.phi.steps i r.phi ∧
        SweepAt st.theta.start st.theta.stop st.theta.steps j r.theta ∧
        SweepAt st.frequency.start st.frequency.stop st.frequency.steps k r.frequency ∧
        r.wavelength * r.frequency = cfg.a ∧ 0 ≤ r.R ∧ 0 ≤ r.T ∧ r.R + r.T + r.A = 1 := by
  obtain ⟨l, -, hf⟩ := ezSpectrum_eq_ok h
  refine ⟨by rw [← hf.length_eq, configs_length], fun i j k hi hj hk => ?_⟩
  have hc := configs_get hi hj hk
  obtain ⟨hn, hc'⟩ := List.getElem?_eq_some_iff.1 hc
  have hn' := hf.length_eq ▸ hn
  have hpt := (List.forall₂_iff_get.1 hf).2 _ hn hn'
  simp only [List.get_eq_getElem] at hpt
  rw [hc'] at hpt
  obtain ⟨h0, kp, S, p0, p, R, T, A, -, -, -, -, hfl, hr⟩ := ezPoint_eq_ok.1 hpt
  refine ⟨_, List.getElem?_eq_getElem hn', ?_⟩
  rw [hr]
  have hs : ∀ (a b : ℝ) {n i : ℕ}, i < n → SweepAt a b n i (linspaceAt a b n i) := by
    intro a b n i hin
    unfold SweepAt linspaceAt
    split_ifs with h1
    · have hn1 : n = 1 := by omega
      have hi0 : i = 0 := by omega
      subst hn1 hi0
      simp
    · have hn0 : (n : ℝ) - 1 ≠ 0 := by
        have : (1 : ℝ) < n := by exact_mod_cast not_le.1 h1
        linarith
      refine ⟨by rintro rfl; simp, ?_, by field_simp; ring⟩
      rintro - rfl
      push_cast at hn0 ⊢
      have : (i : ℝ) ≠ 0 := by simpa using hn0
      field_simp
      ring
  obtain ⟨g1, g2, g3⟩ := C50_partial hfl
  exact ⟨hs _ _ hi, hs _ _ hj, hs _ _ hk, div_mul_cancel₀ _ h0, g1, g2, g3⟩

/-- **C83.** Spectra depend on the lattice size only through the wavelength column: enlarging the project changes nothing
else, errors included (as long as no order is affected by a numerical cut-off, before or after). -/
theorem C83_scale {s : ℝ} (hs : 0 < s) (h : ∀ c ∈ st.configs, cfg.Clear c ∧ { cfg with a := s * cfg.a }.Clear c) :
    ezSpectrum jv1 { cfg with a := s * cfg.a } fuel st device =
      (ezSpectrum jv1 cfg fuel st device).map (List.map fun r => { r with wavelength := s * r.wavelength }) :=
  ezSpectrum_resize hs h fuel device

/-- What a row of a spectrum is. -/
theorem spectrum_row (h : ezSpectrum jv1 cfg fuel st device = .ok rows) {r : EzRow} (hr : r ∈ rows)
    (hrep : ∀ name d, cfg.stacking name = some d → 1 ≤ d.reps) (he : expand cfg m device = some L) :
    ∃ (l : TLattice) (ei ee kx ky : ℝ) (S Vi Ve : Matrix (TIdx l.shape) (TIdx l.shape) ℂ) (pin : TIdx l.shape → ℂ)
      (k0 : Fin (l.shape.1 * l.shape.2)), ezLattice cfg = .ok l ∧
      cfg.materials cfg.incident = some ei ∧ cfg.materials cfg.substrate = some ee ∧ l.epsI = .float ei ∧ l.epsE = .float ee ∧
      0 < ei ∧ 0 < ee ∧ r.wavelength ≠ 0 ∧
      kx = Real.sqrt ei * (2 * Real.pi / r.wavelength) * Real.sin (r.theta * (Real.pi / 180)) * Real.cos (r.phi * (Real.pi / 180)) ∧
      ky = Real.sqrt ei * (2 * Real.pi / r.wavelength) * Real.sin (r.theta * (Real.pi / 180)) * Real.sin (r.phi * (Real.pi / 180)) ∧
      l.V l.epsI r.wavelength (↑kx, ↑ky) = .ok Vi ∧ l.V l.epsE r.wavelength (↑kx, ↑ky) = .ok Ve ∧
      flatT l.shape l.gx k0 = 0 ∧ flatT l.shape l.gy k0 = 0 ∧ pin (.inl (.inl k0)) = st.s ∧ pin (.inl (.inr k0)) = st.p ∧
      (∀ k, k ≠ k0 → pin (.inl (.inl k)) = 0 ∧ pin (.inl (.inr k)) = 0) ∧ (∀ i, pin (.inr i) = 0) ∧
      (∀ u w, TScatters S u w ↔ RelChain (cfg.LayerFields jv1 l r.wavelength (↑kx, ↑ky)) L (Vi *ᵥ u) (Ve *ᵥ w)) ∧
      computeKplanar l.epsI.val r.wavelength r.theta r.phi = .ok (↑kx, ↑ky) ∧
      r.wavelength = cfg.a / r.frequency ∧
      computeFluxes l r.wavelength pin (S *ᵥ pin) (↑kx, ↑ky) = .ok (r.R, r.T, r.A) := by
  obtain ⟨l, hl, hf⟩ := ezSpectrum_eq_ok h
  obtain ⟨n, hn, rfl⟩ := List.getElem_of_mem hr
  have hpt := (List.forall₂_iff_get.1 hf).2 n (hf.length_eq ▸ hn) hn
  simp only [List.get_eq_getElem] at hpt
  generalize st.configs[n]'(hf.length_eq ▸ hn) = c at hpt
  generalize rows[n] = r at hpt ⊢
  obtain ⟨h0, kp, S, p0, pin, R, T, A, hkp, hS, hp0, hpin, hfl, rfl⟩ := ezPoint_eq_ok.1 hpt
  obtain ⟨ei, ee, m1, m2, hmake⟩ := ezLattice_eq_ok.1 hl
  obtain ⟨-, -, -, -, e1, e2⟩ := TLattice.make_fields hmake
  obtain ⟨Vi, Ve, hVi, hVe⟩ := device_V hS
  obtain ⟨hei, hw⟩ := V_float_pos (e1 ▸ hVi)
  obtain ⟨hee, -⟩ := V_float_pos (e2 ▸ hVe)
  have hkp' := hkp
  rw [e1] at hkp'
  have hk := kplanar_real hei hkp'
  obtain ⟨hsz, hlt, p1, p2, p3⟩ := fitVector_eq_ok hp0 hpin
  obtain ⟨hsh, hpos, hpw⟩ := TLattice.fit_shape hmake hsz hlt
  obtain ⟨k0, hk0, gx0, gy0⟩ := TLattice.specular hmake hsh hlt
  have hne : ∀ k, k ≠ k0 → (k : ℕ) ≠ cfg.pw.1 / 2 + cfg.pw.1 * (cfg.pw.2 / 2) := fun k hk e => hk (Fin.ext (e.trans hk0.symm))
  rw [hk] at hS hVi hVe hfl hkp
  refine ⟨l, ei, ee, _, _, S, Vi, Ve, pin, k0, hl, m1, m2, e1, e2, hei, hee, hw, rfl, rfl, hVi, hVe, gx0, gy0,
    by rw [p1, if_pos hk0], by rw [p2, if_pos hk0], fun k hk => ?_, p3, ?_, hkp, rfl, hfl⟩
  · rw [p1, p2, if_neg (hne k hk), if_neg (hne k hk)]; exact ⟨rfl, rfl⟩
  · exact C53_device hmake hpw hpos hrep he hS hVi hVe

/-- **C83 (partial).** Rows come from fields: the amplitudes `pout` that leave are the only ones for which fields exist that obey
Maxwell's equations in every layer of the flattened sequence, continuous from each to the next, with the polarisation of the
study coming in along the specular order of the incidence medium at the angles of the row, and nothing coming from the substrate;
`R` and `T` are ratios of powers of these.  What is missing: the powers are weighted as at normal incidence, whatever the
angle. -/
theorem C83_fields_partial (h : ezSpectrum jv1 cfg fuel st device = .ok rows) {r : EzRow} (hr : r ∈ rows)
    (hrep : ∀ name d, cfg.stacking name = some d → 1 ≤ d.reps) (he : expand cfg m device = some L)
    (hc : cfg.Clear (r.phi, r.theta, r.frequency)) :
    ∃ (l : TLattice) (ei ee kx ky : ℝ) (Vi Ve : Matrix (TIdx l.shape) (TIdx l.shape) ℂ) (pin pout : TIdx l.shape → ℂ)
      (k0 : Fin (l.shape.1 * l.shape.2)), ezLattice cfg = .ok l ∧
      cfg.materials cfg.incident = some ei ∧ cfg.materials cfg.substrate = some ee ∧ l.epsI = .float ei ∧ l.epsE = .float ee ∧
      kx = Real.sqrt ei * (2 * Real.pi / r.wavelength) * Real.sin (r.theta * (Real.pi / 180)) * Real.cos (r.phi * (Real.pi / 180)) ∧
      ky = Real.sqrt ei * (2 * Real.pi / r.wavelength) * Real.sin (r.theta * (Real.pi / 180)) * Real.sin (r.phi * (Real.pi / 180)) ∧
      l.V l.epsI r.wavelength (↑kx, ↑ky) = .ok Vi ∧ l.V l.epsE r.wavelength (↑kx, ↑ky) = .ok Ve ∧
      flatT l.shape l.gx k0 = 0 ∧ flatT l.shape l.gy k0 = 0 ∧ pin (.inl (.inl k0)) = st.s ∧ pin (.inl (.inr k0)) = st.p ∧
      (∀ k, k ≠ k0 → pin (.inl (.inl k)) = 0 ∧ pin (.inl (.inr k)) = 0) ∧ (∀ i, pin (.inr i) = 0) ∧
      (∀ q, RelChain (cfg.LayerFields jv1 l r.wavelength (↑kx, ↑ky)) L (Vi *ᵥ Sum.elim (pin ∘ Sum.inl) (q ∘ Sum.inr))
        (Ve *ᵥ Sum.elim (q ∘ Sum.inl) 0) ↔ q = pout) ∧
      0 < l.normalPower l.epsI r.wavelength (fun k => ‖pin (.inl (.inl k))‖ ^ 2 + ‖pin (.inl (.inr k))‖ ^ 2) ∧
      r.R = l.normalPower l.epsI r.wavelength (fun k => ‖pout (.inr (.inl k))‖ ^ 2 + ‖pout (.inr (.inr k))‖ ^ 2) /
        l.normalPower l.epsI r.wavelength (fun k => ‖pin (.inl (.inl k))‖ ^ 2 + ‖pin (.inl (.inr k))‖ ^ 2) ∧
      r.T = l.normalPower l.epsE r.wavelength (fun k => ‖pout (.inl (.inl k))‖ ^ 2 + ‖pout (.inl (.inr k))‖ ^ 2) /
        l.normalPower l.epsI r.wavelength (fun k => ‖pin (.inl (.inl k))‖ ^ 2 + ‖pin (.inl (.inr k))‖ ^ 2) := by
  obtain ⟨l, ei, ee, kx, ky, S, Vi, Ve, pin, k0, hl, m1, m2, e1, e2, hei, hee, hw, hkx, hky, hVi, hVe, gx0, gy0, hs, hp, hne, hright,
    hch, hkp, hwl, hfl⟩ := spectrum_row h hr hrep he
  obtain ⟨-, -, hng⟩ := hc l (↑kx, ↑ky) hl (by simp only; rw [← hwl]; exact hkp)
  simp only at hng
  rw [← hwl] at hng
  have ng : ∀ eps ∈ [l.epsI, l.epsE], l.NonGrazing eps r.wavelength (0, 0) := fun eps he k =>
    (hng eps he k).imp_right fun h => h.trans_le (le_abs_self _)
  obtain ⟨g0, gR, gT, -⟩ := TLattice.fluxes_ratio (ee := ee) (by rw [e2]; rfl) (ng _ (by simp)) (ng _ (by simp)) hfl
  exact ⟨l, ei, ee, kx, ky, Vi, Ve, pin, S *ᵥ pin, k0, hl, m1, m2, e1, e2, hkx, hky, hVi, hVe, gx0, gy0, hs, hp, hne, hright,
    fun q => by rw [← hch]; exact tscatters_left hright q, g0, gR, gT⟩

/-- Nothing is absorbed at normal incidence. -/
theorem row_lossless {l : TLattice} {ei ee wl kx ky R T A : ℝ} {S Vi Ve : Matrix (TIdx l.shape) (TIdx l.shape) ℂ}
    {pin : TIdx l.shape → ℂ} {k0 : Fin (l.shape.1 * l.shape.2)} (e1 : l.epsI = .float ei) (e2 : l.epsE = .float ee)
    (hei : 0 < ei) (hee : 0 < ee) (hw : 0 < wl) (hk : kx = 0 ∧ ky = 0) (hVi : l.V l.epsI wl (↑kx, ↑ky) = .ok Vi)
    (hVe : l.V l.epsE wl (↑kx, ↑ky) = .ok Ve) (gx0 : flatT l.shape l.gx k0 = 0) (gy0 : flatT l.shape l.gy k0 = 0)
    (hne : ∀ k, k ≠ k0 → pin (.inl (.inl k)) = 0 ∧ pin (.inl (.inr k)) = 0) (hright : ∀ i, pin (.inr i) = 0)
    (hch : ∀ u w, TScatters S u w ↔ RelChain (cfg.LayerFields jv1 l wl (↑kx, ↑ky)) L (Vi *ᵥ u) (Ve *ᵥ w))
    (hng : ∀ eps ∈ [l.epsI, l.epsE], ∀ k, (flatT l.shape (l.kz eps wl (0, 0)) k).im = 0 ∨
      floatEps < (flatT l.shape (l.kz eps wl (0, 0)) k).im)
    (hfl : computeFluxes l wl pin (S *ᵥ pin) (↑kx, ↑ky) = .ok (R, T, A)) : R + T = 1 ∧ A = 0 := by
  have hS : TLossless Vi Ve S := by
    intro u w huw
    refine relChain_invariant ?_ ((hch u w).1 huw)
    intro x F G hx
    exact layerFields_power hw.ne' hx
  have hI1 : l.epsI.val = (ei : ℂ) := by rw [e1]; rfl
  have hE1 : l.epsE.val = (ee : ℂ) := by rw [e2]; rfl
  obtain ⟨rfl, rfl⟩ := hk
  rw [ofReal_zero] at hVi hVe
  refine C61_fluxes hI1 hei hE1 hee (hng _ (by simp)) (hng _ (by simp)) hVi hVe hS (fun k => ?_) hright hfl
  by_cases hk : k = k0
  · left
    rw [hk, TLattice.specular_kz hI1 hei hw gx0 gy0, ofReal_im]
  · exact Or.inr (hne k hk)

/-- **C83 (partial).** At normal incidence nothing is absorbed (materials of projects have real permittivities). -/
theorem C83_normal_partial (h : ezSpectrum jv1 cfg fuel st device = .ok rows) {r : EzRow} (hr : r ∈ rows)
    (hrep : ∀ name d, cfg.stacking name = some d → 1 ≤ d.reps) (he : expand cfg m device = some L)
    (hc : cfg.Clear (r.phi, r.theta, r.frequency)) (ht : r.theta = 0) (hwl0 : 0 < r.wavelength) : r.R + r.T = 1 ∧ r.A = 0 := by
  obtain ⟨l, ei, ee, kx, ky, S, Vi, Ve, pin, k0, hl, m1, m2, e1, e2, hei, hee, hw, hkx, hky, hVi, hVe, gx0, gy0, hs, hp, hne, hright,
    hch, hkp, hwl, hfl⟩ := spectrum_row h hr hrep he
  obtain ⟨-, -, hng⟩ := hc l (↑kx, ↑ky) hl (by simp only; rw [← hwl]; exact hkp)
  simp only at hng
  rw [← hwl] at hng
  exact row_lossless e1 e2 hei hee hwl0 (by rw [hkx, hky, ht]; simp) hVi hVe gx0 gy0 hne hright hch hng hfl

/-- Two units of vacuum over a half space of permittivity 4, one order. -/
def slabProject : EzConfig where
  a := 1
  a1 := (1, 0)
  a2 := (0, 1)
  pw := (1, 1)
  incident := "Air"
  substrate := "Glass"
  materials := fun x => if x = "Air" then some 1 else if x = "Glass" then some 4 else none
  layers := fun x => if x = "A" then some ⟨"Air", 2, []⟩ else none
  stacking := fun _ => none

theorem slab_lattice : ∃ l, ezLattice slabProject = .ok l ∧ TLattice.make (1, 1) (1, 0) (0, 1) (.float 1) (.float 4) = .ok l ∧
    l.b = ((2 * Real.pi, 0), (0, 2 * Real.pi)) := by
  obtain ⟨l, h, hb⟩ := unit_tlattice (1, 1) rfl (.float 1) (.float 4)
  refine ⟨l, ?_, h, hb⟩
  simp only [ezLattice, slabProject, pyKey, if_true, ok_bind, mul_one, String.reduceEq, if_false]
  exact h

theorem slab_order {l : TLattice} (hsh : l.shape = (1, 1)) (k : Fin (l.shape.1 * l.shape.2)) : (k : ℕ) = 0 := by
  have h := k.2
  have : l.shape.1 * l.shape.2 = 1 := congrArg (fun s : ℕ × ℕ => s.1 * s.2) hsh
  omega

theorem slab_kz {l : TLattice} (h : TLattice.make (1, 1) (1, 0) (0, 1) (.float 1) (.float 4) = .ok l) {r e c : ℝ} (hr : 0 < r)
    (hrc : r ^ 2 = e * (2 * Real.pi) ^ 2 - c ^ 2) (k : Fin (l.shape.1 * l.shape.2)) :
    flatT l.shape (l.kz (.float e) 1 (↑c, 0)) k = r := by
  have hsh : l.shape = (1, 1) := (TLattice.make_shape_iff h (by norm_num)).2 (Or.inl rfl)
  have hk := slab_order hsh k
  simp only [flatT, TLattice.kz, hk, PyNum.val, Nat.zero_mod, Nat.zero_div]
  refine computeKz_pos hr ?_
  rw [(TLattice.make_gx h 0 0).1, (TLattice.make_gx h 0 0).2, hrc]
  norm_num

theorem slab_point (jv1 : ℝ → ℝ) {l : TLattice} (hl : TLattice.make (1, 1) (1, 0) (0, 1) (.float 1) (.float 4) = .ok l)
    {θ c kI kE : ℝ} (hθ : 2 * Real.pi * Real.sin (θ * (Real.pi / 180)) = c) (hc : c = 0 ∨ 1 ≤ c) (hI0 : 0 < kI) (hE0 : 0 < kE)
    (hI : kI ^ 2 = (2 * Real.pi) ^ 2 - c ^ 2) (hE : kE ^ 2 = 4 * (2 * Real.pi) ^ 2 - c ^ 2) (hexp : exp (I * kI * 2) = 1) :
    ezPoint jv1 slabProject 1 l 1 0 "A" (0, θ, 1) = .ok ⟨0, θ, 1, 1, ((kI - kE) / (kI + kE)) ^ 2, 2 * (2 * kI / (kI + kE)) ^ 2,
      1 - ((kI - kE) / (kI + kE)) ^ 2 - 2 * (2 * kI / (kI + kE)) ^ 2⟩ := by
  obtain ⟨-, -, -, -, h1, h2⟩ := TLattice.make_fields hl
  have hpi := Real.pi_pos
  have z0 : ((0 : ℝ) : ℂ) = 0 := ofReal_zero
  have hI1 : l.epsI.val = ((1 : ℝ) : ℂ) := by rw [h1]; rfl
  have hE1 : l.epsE.val = ((4 : ℝ) : ℂ) := by rw [h2]; rfl
  have hsh : l.shape = (1, 1) := (TLattice.make_shape_iff hl (by norm_num)).2 (Or.inl rfl)
  have kzI : ∀ k, flatT l.shape (l.kz l.epsI 1 (↑c, ↑(0 : ℝ))) k = kI := fun k => by
    rw [h1, z0]; exact slab_kz hl hI0 (by rw [hI]; ring) k
  have kzE : ∀ k, flatT l.shape (l.kz l.epsE 1 (↑c, ↑(0 : ℝ))) k = kE := fun k => by
    rw [h2, z0]; exact slab_kz hl hE0 hE k
  have hkI : ∀ k, flatT l.shape (l.kz l.epsI 1 (↑c, ↑(0 : ℝ))) k ≠ 0 := fun k => by rw [kzI]; exact_mod_cast hI0.ne'
  have hall : ∀ k k' : Fin (l.shape.1 * l.shape.2), k = k' := fun k k' =>
    Fin.ext ((slab_order hsh k).trans (slab_order hsh k').symm)
  obtain ⟨k0, -, gx0, gy0⟩ := TLattice.specular hl hsh (by norm_num)
  have hclear : ∀ k, l.wave (↑c, ↑(0 : ℝ)) k = 0 ∨ 1 / 2 ^ 52 ≤ ‖(l.wave (↑c, ↑(0 : ℝ)) k).1‖ ^ 2 + ‖(l.wave (↑c, ↑(0 : ℝ)) k).2‖ ^ 2 := by
    intro k
    rw [hall k k0]
    have : l.wave (↑c, ↑(0 : ℝ)) k0 = ((c : ℂ), 0) := by simp only [TLattice.wave, gx0, gy0]; simp
    rw [this]
    rcases hc with hc | hc
    · left; simp [hc]
    · right
      rw [Complex.norm_real, Real.norm_eq_abs, sq_abs]
      have : (1 : ℝ) ≤ c ^ 2 := by nlinarith
      norm_num
      linarith
  have hkp : computeKplanar l.epsI.val 1 θ 0 = .ok ((c : ℂ), ((0 : ℝ) : ℂ)) := by
    have hs : ((Real.sin (θ * (Real.pi / 180)) : ℝ) : ℂ) * (2 * Real.pi) = c := by rw [← hθ]; push_cast; ring
    have hcs : csqrt ((1 : ℝ) : ℂ) = 1 := by rw [csqrt_pos one_pos]; simp
    unfold computeKplanar
    rw [hI1]
    simp only [one_ne_zero, if_false, pure, Except.pure, bind, Except.bind, hcs]
    congr 2
    · simp only [zero_mul, Real.cos_zero, ofReal_one]; rw [← hs]; ring
    · simp
  have hlay : tmatScattering jv1 l [] 1 1 (↑c, ↑(0 : ℝ)) 2 3 = .ok 1 := by
    have := C60_uniform (jv1 := jv1) (islands := []) (host := 1) (wl := 1) (a := c) (b := 0)
      hl (Or.inl rfl) (by norm_num) (by simp) (by simp) (by simp) (by rw [hI1]; simp) (by rw [hI1]; simp) (by norm_num)
      (by rw [h1]; intro r hr; cases hr; norm_num) hkI hclear 2 3
    rw [this]
    congr 1
    rw [← diagonal_one]
    congr 1
    funext i
    rcases i with (i | i) | (i | i) <;> simp only [Sum.elim_inl, Sum.elim_inr, kzI, ofReal_ofNat, hexp]
  obtain ⟨Si, hSi, hf⟩ := C84_interface (l := l) (wl := 1) (a := c) (b := 0) one_ne_zero hI1 one_pos hE1 (by norm_num) hkI
  have hdev : ezDevice jv1 slabProject 1 l 1 (↑c, ↑(0 : ℝ)) "A" = .ok Si := by
    refine ezDevice_eq_ok.2 ⟨["A"], [("A", 1)], 1, Si, ?_, by simp, ?_, ?_, hSi, one_multS Si⟩
    · simp [gatherS, slabProject]
    · unfold ezLayers
      rw [mapM_eq_ok]
      refine .cons ?_ .nil
      simp only [slabProject, pyKey, ezSolve, ezOptics, pure, Except.pure, List.mapM_nil, if_true, ok_bind, mul_one,
        Complex.ofReal_one, hlay]
    · simp [stackS, List.lookup]
  obtain ⟨v, hv⟩ := C46_incident_exists (pw := (1, 1)) (by norm_num) (by norm_num) 1 0 1
  obtain ⟨pin, hpin⟩ := fitVector_exists (pw := (1, 1)) (s := l.shape) (by rw [hsh]) v
  obtain ⟨-, -, p1, p2, p3⟩ := fitVector_eq_ok hv hpin
  have hz := slab_order hsh
  have p1' : pin (.inl (.inl k0)) = 1 := by rw [p1]; simp [hz]
  have p2' : pin (.inl (.inr k0)) = 0 := by rw [p2]; simp
  obtain ⟨-, -, f1, f2, f3, f4⟩ := hf pin k0 kI kE _ (kzI k0).symm (kzE k0).symm rfl
  rw [p1', p3] at f1 f2
  rw [p2', p3] at f3 f4
  have hsum : 0 < kI + kE := by positivity
  have sI : flatT l.shape (l.kz l.epsI 1 (0, 0)) k0 = ((2 * Real.pi : ℝ) : ℂ) := by
    rw [h1, ← z0]; exact slab_kz hl (by positivity) (by ring) k0
  have sE : flatT l.shape (l.kz l.epsE 1 (0, 0)) k0 = ((4 * Real.pi : ℝ) : ℂ) := by
    rw [h2, ← z0]; exact slab_kz hl (by positivity) (by ring) k0
  have hfl := TLattice.fluxes_specular hl one_pos hE1 (k0 := k0) (κI := 2 * Real.pi) (κE := 4 * Real.pi) (by positivity)
    (by positivity) sI sE (pin := pin) (pout := Si *ᵥ pin) (fun k hk => absurd (hall k k0) hk) (fun k hk => absurd (hall k k0) hk)
    (X := 1) (Y := ((kI - kE) / (kI + kE)) ^ 2) (Z := (2 * kI / (kI + kE)) ^ 2) (by rw [p1', p2']; simp) one_ne_zero
    (by
      rw [f2, f4]
      have : ((kI - kE : ℂ) * 1 + 2 * kE * 0) / (kI + kE) = (((kI - kE) / (kI + kE) : ℝ) : ℂ) := by push_cast; ring
      rw [this, Complex.norm_real, Real.norm_eq_abs, sq_abs]; simp)
    (by
      rw [f1, f3]
      have : ((2 * kI : ℂ) * 1 + (kE - kI) * 0) / (kI + kE) = ((2 * kI / (kI + kE) : ℝ) : ℂ) := by push_cast; ring
      rw [this, Complex.norm_real, Real.norm_eq_abs, sq_abs]; simp) (↑c, ↑(0 : ℝ))
  rw [ezPoint_eq_ok]
  refine ⟨one_ne_zero, (↑c, ↑(0 : ℝ)), Si, v, pin, ((kI - kE) / (kI + kE)) ^ 2, 2 * (2 * kI / (kI + kE)) ^ 2,
    1 - ((kI - kE) / (kI + kE)) ^ 2 - 2 * (2 * kI / (kI + kE)) ^ 2, ?_, ?_, hv, hpin, ?_, ?_⟩
  rotate_left 3
  · simp only [slabProject, div_one]
  all_goals simp only [slabProject, div_one]
  · exact hkp
  · exact hdev
  · rw [hfl]
    have e : 4 * Real.pi * (2 * kI / (kI + kE)) ^ 2 / (2 * Real.pi * 1) = 2 * (2 * kI / (kI + kE)) ^ 2 := by field_simp; norm_num
    rw [e, div_one]

/-- From normal incidence to 60 degrees, s polarisation. -/
def slabStudy : EzStudy where
  phi := ⟨0, 0, 1⟩
  theta := ⟨0, 60, 2⟩
  frequency := ⟨1, 1, 1⟩
  s := 1
  p := 0

theorem slab_spectrum (jv1 : ℝ → ℝ) : ezSpectrum jv1 slabProject 1 slabStudy "A" =
    .ok [⟨0, 0, 1, 1, 1 / 9, 8 / 9, 0⟩, ⟨0, 60, 1, 1, ((1 - √13) / (1 + √13)) ^ 2, 8 / (1 + √13) ^ 2, 4 * (√13 - 2) / (1 + √13) ^ 2⟩] := by
  obtain ⟨l, hl, hm, -⟩ := slab_lattice
  have hpi := Real.pi_gt_three
  have h13 : √13 ^ 2 = 13 := Real.sq_sqrt (by norm_num)
  have h13' : (0 : ℝ) ≤ √13 := Real.sqrt_nonneg _
  have h3 : √3 ^ 2 = 3 := Real.sq_sqrt (by norm_num)
  have h31 : (1 : ℝ) ≤ √3 := by rw [Real.one_le_sqrt]; norm_num
  have a1 := slab_point jv1 hm (θ := 0) (c := 0) (kI := 2 * Real.pi) (kE := 4 * Real.pi) (by simp) (Or.inl rfl) (by positivity)
    (by positivity) (by ring) (by ring) (by
      rw [exp_eq_one_iff]; exact ⟨2, by push_cast; ring⟩)
  have a2 := slab_point jv1 hm (θ := 60) (c := √3 * Real.pi) (kI := Real.pi) (kE := √13 * Real.pi)
    (by rw [show (60 : ℝ) * (Real.pi / 180) = Real.pi / 3 by ring, Real.sin_pi_div_three]; ring)
    (Or.inr (by nlinarith)) (by positivity) (by positivity) (by linear_combination Real.pi ^ 2 * h3)
    (by linear_combination Real.pi ^ 2 * h3 + Real.pi ^ 2 * h13)
    (by rw [exp_eq_one_iff]; exact ⟨1, by push_cast; ring⟩)
  have hc : slabStudy.configs = [(0, 0, 1), (0, 60, 1)] := by
    simp [EzStudy.configs, slabStudy, EzSweep.values, linspaceAt, List.range_succ]
    norm_num
  obtain ⟨v, hv⟩ := C46_incident_exists (pw := (1, 1)) (by norm_num) (by norm_num) 1 0 1
  have hg : gatherS slabProject 1 "A" [] = .ok ["A"] := by simp [gatherS, slabProject]
  have hv' : tmatIncident slabProject.pw 1 slabStudy.p slabStudy.s = .ok v := hv
  unfold ezSpectrum
  rw [hl, ok_bind, hv']
  simp only [ok_bind, hg]
  rw [pyCheck_ok (by simp), hc]
  change List.mapM (ezPoint jv1 slabProject 1 l 1 0 "A") [(0, 0, 1), (0, 60, 1)] = _
  rw [mapM_eq_ok]
  refine .cons ?_ (.cons ?_ .nil)
  · refine Eq.trans a1 ?_
    congr 2
    · field_simp; norm_num
    · field_simp; norm_num
    · field_simp; norm_num
  · refine Eq.trans a2 ?_
    have e1 : (Real.pi - √13 * Real.pi) / (Real.pi + √13 * Real.pi) = (1 - √13) / (1 + √13) := by field_simp
    have e2 : 2 * Real.pi / (Real.pi + √13 * Real.pi) = 2 / (1 + √13) := by field_simp
    rw [e1, e2]
    have hp : (0 : ℝ) < 1 + √13 := by linarith
    congr 2
    · field_simp; norm_num
    · field_simp; ring

/-- **C83, the other way.** At oblique incidence a stack without absorption is said to absorb: at 60 degrees, vacuum over a half
space of permittivity 4 yields an absorption of about 0.30. -/
theorem C83_oblique_counterexample (jv1 : ℝ → ℝ) : ∃ rows, ezSpectrum jv1 slabProject 1 slabStudy "A" = .ok rows ∧
    ∃ r ∈ rows, r.theta = 60 ∧ 3 / 10 < r.A := by
  refine ⟨_, slab_spectrum jv1, _, List.mem_cons_of_mem _ List.mem_cons_self, rfl, ?_⟩
  have h13 : √13 ^ 2 = 13 := Real.sq_sqrt (by norm_num)
  have h1 : (3.6 : ℝ) < √13 := by rw [Real.lt_sqrt (by norm_num)]; norm_num
  have h2 : √13 < (3.61 : ℝ) := by rw [Real.sqrt_lt' (by norm_num)]; norm_num
  simp only
  rw [lt_div_iff₀ (by positivity)]
  nlinarith

/-- Non-vacuity of C83: the hypotheses are met by the normal-incidence row of that spectrum. -/
example (jv1 : ℝ → ℝ) : ∃ rows r, ezSpectrum jv1 slabProject 1 slabStudy "A" = .ok rows ∧ r ∈ rows ∧ r.theta = 0 ∧ 0 < r.wavelength ∧
    (∀ name d, slabProject.stacking name = some d → 1 ≤ d.reps) ∧ expand slabProject 1 "A" = some ["A"] ∧
    slabProject.Clear (r.phi, r.theta, r.frequency) := by
  refine ⟨_, _, slab_spectrum jv1, List.mem_cons_self, rfl, one_pos, by simp [slabProject], by simp [expand, slabProject], ?_⟩
  intro l kp hl hkp
  obtain ⟨l', hl', hm, hb⟩ := slab_lattice
  rw [hl'] at hl
  cases hl
  obtain ⟨-, -, -, -, h1, h2⟩ := TLattice.make_fields hm
  have hpi := Real.pi_pos
  have z0 : ((0 : ℝ) : ℂ) = 0 := ofReal_zero
  have hk : kp = (0, 0) := by
    rw [h1] at hkp
    rw [kplanar_real one_pos hkp]
    simp
  refine ⟨fun i j _ _ => ?_, fun k => ?_, fun eps he k => Or.inl ?_⟩
  · rw [(TLattice.make_Gx hm i j).1, (TLattice.make_Gx hm i j).2, hb]
    have hpi := Real.pi_gt_three
    by_cases hi : i = 0
    · by_cases hj : j = 0
      · left; simp [hi, hj]
      · right; right
        have : (1 : ℝ) ≤ j := by exact_mod_cast Nat.one_le_iff_ne_zero.2 hj
        simp
        rw [abs_of_pos (by linarith : 0 < Real.pi)]
        norm_num
        nlinarith
    · right; left
      have : (1 : ℝ) ≤ i := by exact_mod_cast Nat.one_le_iff_ne_zero.2 hi
      simp
      rw [abs_of_pos (by linarith : 0 < Real.pi)]
      norm_num
      nlinarith
  · rw [hk]; exact unit_tlattice_clear hm hb k
  · simp only [List.mem_cons, List.not_mem_nil, or_false] at he
    simp only [slabProject, div_one]
    rcases he with rfl | rfl
    · rw [h1, show flatT l.shape (l.kz (.float 1) 1 (0, 0)) k = ((2 * Real.pi : ℝ) : ℂ) by
        rw [← z0]; exact slab_kz hm (by positivity) (by ring) k, ofReal_im]
    · rw [h2, show flatT l.shape (l.kz (.float 4) 1 (0, 0)) k = ((4 * Real.pi : ℝ) : ℂ) by
        rw [← z0]; exact slab_kz hm (by positivity) (by ring) k, ofReal_im]

end C83

end Khepri
