import Verif.Lemmas.Multilayer
import Verif.Props.Crystal
import Verif.Lemmas.FieldsSource

set_option linter.unusedSectionVars false

namespace Khepri

open Matrix

section
variable {ι : Type} [Fintype ι] [DecidableEq ι]

/-- Power carried by a wave of given polarisation components. -/
theorem pol_power {kx ky : ι → ℝ} {er : ℝ} {i : ι} (hg : er - kx i ^ 2 - ky i ^ 2 ≠ 0) {u v : ℂ × ℂ}
    (hu : Polarisation.te.Holds (kx i) (ky i) u) (hv : Polarisation.tm.Holds (kx i) (ky i) v)
    (ho : u.1 * star v.1 + u.2 * star v.2 = 0) (a b : ℂ) :
    (outerKz (er - kx i ^ 2 - ky i ^ 2)).re *
      waveNorm kx ky (fun i => outerKz (er - kx i ^ 2 - ky i ^ 2)) (a • orderWave i u + b • orderWave i v) i =
    (outerAdmittance .te (kx i ^ 2 + ky i ^ 2) er).re * (‖a‖ ^ 2 * (‖u.1‖ ^ 2 + ‖u.2‖ ^ 2)) +
      (outerAdmittance .tm (kx i ^ 2 + ky i ^ 2) er).re * (‖b‖ ^ 2 * (‖v.1‖ ^ 2 + ‖v.2‖ ^ 2)) := by
  have hD : er - (kx i ^ 2 + ky i ^ 2) = er - kx i ^ 2 - ky i ^ 2 := by ring
  simp only [outerAdmittance, Polarisation.admittance, hD, waveNorm, orderWave, Pi.add_apply, Pi.smul_apply,
    Sum.elim_inl, Sum.elim_inr, Pi.single_eq_same, smul_eq_mul]
  simp only [Polarisation.Holds] at hu hv
  have hz : (kx i : ℂ) * (a * u.1 + b * v.1) + ky i * (a * u.2 + b * v.2) = b * (kx i * v.1 + ky i * v.2) := by
    linear_combination a * hu
  rw [hz]
  have hs : ‖a * u.1 + b * v.1‖ ^ 2 + ‖a * u.2 + b * v.2‖ ^ 2 =
      ‖a‖ ^ 2 * (‖u.1‖ ^ 2 + ‖u.2‖ ^ 2) + ‖b‖ ^ 2 * (‖v.1‖ ^ 2 + ‖v.2‖ ^ 2) := by
    have h1 : ∀ z : ℂ, ((‖z‖ ^ 2 : ℝ) : ℂ) = z * star z := fun z => by
      rw [Complex.sq_norm, Complex.star_def, Complex.mul_conj]
    have ho' : star u.1 * v.1 + star u.2 * v.2 = 0 := by
      have := congrArg star ho
      simpa [mul_comm] using this
    rw [← Complex.ofReal_inj]
    push_cast
    simp only [← Complex.ofReal_pow, h1, star_add, star_mul']
    linear_combination (a * star b) * ho + (star a * b) * ho'
  have hw : ‖(kx i : ℂ) * v.1 + ky i * v.2‖ ^ 2 = (kx i ^ 2 + ky i ^ 2) * (‖v.1‖ ^ 2 + ‖v.2‖ ^ 2) := by
    have h1 : ∀ z : ℂ, ((‖z‖ ^ 2 : ℝ) : ℂ) = z * star z := fun z => by
      rw [Complex.sq_norm, Complex.star_def, Complex.mul_conj]
    have hv' : (kx i : ℂ) * star v.2 - ky i * star v.1 = 0 := by
      have := congrArg star hv
      simpa [mul_comm] using this
    have hc1 : star (kx i : ℂ) = kx i := Complex.conj_ofReal _
    have hc2 : star (ky i : ℂ) = ky i := Complex.conj_ofReal _
    rw [← Complex.ofReal_inj]
    push_cast
    simp only [← Complex.ofReal_pow, h1, star_add, star_mul', hc1, hc2]
    push_cast
    linear_combination (ky i * star v.1 - kx i * star v.2) * hv
  rw [neg_div, norm_neg, norm_div, norm_mul, div_pow, mul_pow, hw, hs]
  rcases lt_or_gt_of_ne hg with hneg | hpos
  · rw [outerKz_neg hneg]
    have h0 : (-Complex.I * ((Real.sqrt (-(er - kx i ^ 2 - ky i ^ 2)) : ℝ) : ℂ)).re = 0 := by simp
    have h1 : ((er : ℂ) / (-Complex.I * ((Real.sqrt (-(er - kx i ^ 2 - ky i ^ 2)) : ℝ) : ℂ))).re = 0 := by
      have : (er : ℂ) / (-Complex.I * ((Real.sqrt (-(er - kx i ^ 2 - ky i ^ 2)) : ℝ) : ℂ)) =
          Complex.I * ((er / Real.sqrt (-(er - kx i ^ 2 - ky i ^ 2)) : ℝ) : ℂ) := by
        rw [div_mul_eq_div_div_swap, div_neg, Complex.div_I]
        push_cast; ring
      rw [this]; simp
    rw [h0, h1]; ring
  · rw [outerKz_pos hpos, Complex.ofReal_re, ← Complex.ofReal_div, Complex.ofReal_re, Complex.norm_real,
      Real.norm_eq_abs, sq_abs]
    have hk : 0 < Real.sqrt (er - kx i ^ 2 - ky i ^ 2) := Real.sqrt_pos.2 hpos
    have hk2 := Real.sq_sqrt hpos.le
    set k := Real.sqrt (er - kx i ^ 2 - ky i ^ 2)
    have : er = k ^ 2 + (kx i ^ 2 + ky i ^ 2) := by rw [hk2]; ring
    rw [this]
    field_simp
    ring

end

variable {N : ℕ}

/-- The incident wave as the sum of its two polarisations. -/
theorem incident_pol {a b : ℝ} {k0 er : ℝ} (hk0 : 0 < k0) {inc : Vec2 N} {te tm : ℂ} {kzi : ℂ}
    {kx ky : Fin N → ℝ} {i0 : Fin N} (hi0 : (i0 : ℕ) = (N - 1) / 2) (hx : kx i0 = a / k0)
    (hy : ky i0 = b / k0) (hpos : 0 < er - kx i0 ^ 2 - ky i0 ^ 2)
    (hkz : kzi = star (csqrt ((k0 : ℂ) ^ 2 * er - (a : ℂ) ^ 2 - (b : ℂ) ^ 2)))
    (hab : (a = 0 ∧ b = 0) ∨ (1 / 10 ^ 8) ^ 2 ≤ a ^ 2 + b ^ 2)
    (h : incident N te tm ⟨a, b, kzi⟩ = .ok inc) :
    0 < ‖te‖ ^ 2 + ‖tm‖ ^ 2 ∧ ∃ u v : ℂ × ℂ, inc = orderWave i0 u + orderWave i0 v ∧
      Polarisation.te.Holds (kx i0) (ky i0) u ∧ Polarisation.tm.Holds (kx i0) (ky i0) v ∧
      u.1 * star v.1 + u.2 * star v.2 = 0 ∧
      ‖u.1‖ ^ 2 + ‖u.2‖ ^ 2 = ‖te‖ ^ 2 / (‖te‖ ^ 2 + ‖tm‖ ^ 2) ∧
      er * (‖v.1‖ ^ 2 + ‖v.2‖ ^ 2) = (er - kx i0 ^ 2 - ky i0 ^ 2) * (‖tm‖ ^ 2 / (‖te‖ ^ 2 + ‖tm‖ ^ 2)) := by
  have e1 : kzi = k0 * outerKz (er - kx i0 ^ 2 - ky i0 ^ 2) := by
    rw [hkz, ← outerKz_mul_sq hk0, ← star_csqrt_ofReal, hx, hy]
    have : (k0 : ℂ) ≠ 0 := by exact_mod_cast hk0.ne'
    push_cast
    congr 2
    field_simp
  rw [outerKz_pos hpos] at e1
  have hss := Real.sq_sqrt hpos.le
  set s := Real.sqrt (er - kx i0 ^ 2 - ky i0 ^ 2) with hs
  have hs0 : 0 < s := Real.sqrt_pos.2 hpos
  have e2 : kzi = ((k0 * s : ℝ) : ℂ) := by rw [e1]; push_cast; rfl
  rw [e2] at h
  obtain ⟨hN, hn, aTE, aTM, hpol, rfl⟩ := incident_eq_ok.1 h
  have hn2 : polNorm te tm ^ 2 = ‖te‖ ^ 2 + ‖tm‖ ^ 2 := Real.sq_sqrt (by positivity)
  have hn0 : 0 < ‖te‖ ^ 2 + ‖tm‖ ^ 2 := by rw [← hn2]; positivity
  have hnn : ‖(polNorm te tm : ℂ)‖ ^ 2 = ‖te‖ ^ 2 + ‖tm‖ ^ 2 := by
    rw [Complex.norm_real, Real.norm_eq_abs, sq_abs, hn2]
  refine ⟨hn0, (te / polNorm te tm * aTE.x, te / polNorm te tm * aTE.y),
    (tm / polNorm te tm * aTM.x, tm / polNorm te tm * aTM.y), ?_, ?_⟩
  · funext j
    have hj : ∀ j : Fin N, (j : ℕ) = (N - 1) / 2 ↔ j = i0 := fun j => by rw [← hi0, Fin.ext_iff]
    rcases j with j | j <;> by_cases hj' : j = i0 <;> simp [orderWave, hj, hj']
  simp only [Polarisation.Holds, norm_mul, mul_pow, norm_div, div_pow, hnn]
  rcases hab with ⟨rfl, rfl⟩ | hab
  · rw [polarisations_small (by simp)] at hpol
    simp only [Except.ok.injEq, Prod.mk.injEq] at hpol
    obtain ⟨rfl, rfl⟩ := hpol
    simp [hx, hy]
  · have hs1 : 1 / 10 ^ 8 ≤ Real.sqrt (a ^ 2 + b ^ 2) := Real.le_sqrt_of_sq_le hab
    have hsp : 0 < a ^ 2 + b ^ 2 := lt_of_lt_of_le (by positivity) hab
    have hσ := Real.sq_sqrt hsp.le
    have hσ0 : 0 < Real.sqrt (a ^ 2 + b ^ 2) := Real.sqrt_pos.2 hsp
    set σ := Real.sqrt (a ^ 2 + b ^ 2)
    have hK0 : 0 < σ ^ 2 + (k0 * s) ^ 2 := by positivity
    have hK := Real.sq_sqrt hK0.le
    have hKp : 0 < Real.sqrt (σ ^ 2 + (k0 * s) ^ 2) := Real.sqrt_pos.2 hK0
    rw [polarisations_large hσ hs1 hK hKp] at hpol
    set K := Real.sqrt (σ ^ 2 + (k0 * s) ^ 2)
    simp only [Except.ok.injEq, Prod.mk.injEq] at hpol
    obtain ⟨rfl, rfl⟩ := hpol
    have c0 : (k0 : ℂ) ≠ 0 := by exact_mod_cast hk0.ne'
    have c1 : (σ : ℂ) ≠ 0 := by exact_mod_cast hσ0.ne'
    have c2 : (K : ℂ) ≠ 0 := by exact_mod_cast hKp.ne'
    have c3 : (polNorm te tm : ℂ) ≠ 0 := by exact_mod_cast hn
    rw [hx, hy]
    refine ⟨?_, ?_, ?_, ?_, ?_⟩
    · push_cast; field_simp; ring
    · push_cast; field_simp; ring
    · simp only [star_mul', Complex.star_def, Complex.conj_ofReal]
      push_cast
      field_simp
      ring
    · simp only [Complex.norm_real, Real.norm_eq_abs, sq_abs]
      field_simp
      rw [hσ]; ring
    · simp only [Complex.norm_real, Real.norm_eq_abs, sq_abs]
      have hk : K ^ 2 = k0 ^ 2 * er := by
        have : s ^ 2 = er - (a / k0) ^ 2 - (b / k0) ^ 2 := by rw [hss, hx, hy]
        rw [hK, hσ, mul_pow, this]
        field_simp
        ring
      have hs2 : s ^ 2 = er - (a / k0) ^ 2 - (b / k0) ^ 2 := by rw [hss, hx, hy]
      have her : 0 < er := by
        have : 0 < k0 ^ 2 * er := by rw [← hk]; positivity
        exact (mul_pos_iff_of_pos_left (by positivity)).1 this
      rw [← hs2]
      have : (a * (k0 * s) / (σ * K)) ^ 2 + (b * (k0 * s) / (σ * K)) ^ 2 = s ^ 2 / er := by
        rw [div_pow, div_pow, mul_pow σ, hk, hσ]
        field_simp
      rw [← mul_add, this]
      field_simp

section
variable {lib : NumLib} {order : List String} {c c1 c2 c3 : Crystal N} {stack : List String}
  {m : Bool ⊕ List Bool} {Ls : List (Layer N)} {er et : ℝ} {wl : ℝ} {te tm : ℂ} {theta phi : ℝ}
  {kpo : Option (ℂ × ℂ)}

theorem orderWave_other {i j : Fin N} (h : j ≠ i) (u : ℂ × ℂ) :
    orderWave i u (.inl j) = 0 ∧ orderWave i u (.inr j) = 0 := by
  simp [orderWave, Pi.single_eq_of_ne h]

/-- Flux of a half space where a single order travels. -/
theorem fluxZ_single {kx ky : Fin N → ℝ} {er : ℝ} (hg : ∀ i, er - kx i ^ 2 - ky i ^ 2 ≠ 0) {i0 : Fin N}
    {p : Port (Fin N ⊕ Fin N)}
    (h0 : ∀ j ≠ i0, (p.fwd (.inl j) = 0 ∧ p.fwd (.inr j) = 0) ∧ (p.bwd (.inl j) = 0 ∧ p.bwd (.inr j) = 0))
    (he : er - kx i0 ^ 2 - ky i0 ^ 2 < 0 → p.bwd (.inl i0) = 0 ∧ p.bwd (.inr i0) = 0) :
    fluxZ (outerField kx ky er p) = (outerKz (er - kx i0 ^ 2 - ky i0 ^ 2)).re *
      (waveNorm kx ky (fun i => outerKz (er - kx i ^ 2 - ky i ^ 2)) p.fwd i0 -
        waveNorm kx ky (fun i => outerKz (er - kx i ^ 2 - ky i ^ 2)) p.bwd i0) := by
  rw [fluxZ_outer hg, Finset.sum_eq_single i0]
  · intro j _ hj
    obtain ⟨⟨a, b⟩, c, d⟩ := h0 j hj
    simp [waveNorm, a, b, c, d]
  · simp
  · intro j hj
    by_cases h : j = i0
    · subst h; exact .inr (he hj)
    · exact .inl (h0 j h).1

/-- Amplitudes on both sides of a stack of uniform layers, for the incident wave of the source. -/
theorem uniform_fluxes (he : EigContract (lib.eig N)) (hb : Built c.expansion)
    (hc : FreshDevice c stack m Ls er et)
    (h1 : c.setDevice stack m = .ok c1) (h2 : c1.setSource wl te tm theta phi kpo = .ok c2)
    (ho : SetOrder ("Sref" :: (stack ++ ["Strans"])) order) (h3 : c2.solve lib order = .ok c3)
    (hwl : 0 < wl) {src : Source} (hs : c2.source = some src) {kp : ℝ × ℝ}
    (hkp : src.kp = (↑kp.1, ↑kp.2))
    (hcut : (kp.1 = 0 ∧ kp.2 = 0) ∨ (1 / 10 ^ 8) ^ 2 ≤ kp.1 ^ 2 + kp.2 ^ 2)
    {data : List (ℂ × ℝ)} (hd : List.Forall₂ (fun l x => l.form = .uniform x.1 ∧ l.depth = x.2) Ls data)
    {κ2 : ℝ} (hκ : κ2 = (kp.1 / (2 * Real.pi / wl)) ^ 2 + (kp.2 / (2 * Real.pi / wl)) ^ 2)
    (hg : ∀ x ∈ data, x.1 ≠ κ2)
    {f : Crystal.Fluxes N} (hf : c3.poyntingFluxEnd = .ok f) :
    f.R = (‖te‖ ^ 2 * ‖reflection .te κ2 (2 * Real.pi / wl) data er et‖ ^ 2 +
        ‖tm‖ ^ 2 * ‖reflection .tm κ2 (2 * Real.pi / wl) data er et‖ ^ 2) / (‖te‖ ^ 2 + ‖tm‖ ^ 2) ∧
    f.T = (‖te‖ ^ 2 * ((outerAdmittance .te κ2 et).re / (outerAdmittance .te κ2 er).re *
          ‖transmission .te κ2 (2 * Real.pi / wl) data er et‖ ^ 2) +
        ‖tm‖ ^ 2 * ((outerAdmittance .tm κ2 et).re / (outerAdmittance .tm κ2 er).re *
          ‖transmission .tm κ2 (2 * Real.pi / wl) data er et‖ ^ 2)) / (‖te‖ ^ 2 + ‖tm‖ ^ 2) := by
  obtain ⟨hgr, hgt, hr0⟩ := outer_not_grazing hc h1 h2 ho h3 hs hkp
  obtain ⟨st, Ms', hst, hM', hS⟩ := C12_crystal he hc h1 h2 ho h3 hs hkp
  obtain ⟨lr, lt, Ls', k, hdv, hL, hexp, hi, hie, hwl', hk, hsrc, -⟩ := fresh_standard hc h1 h2
  have hcen : Centered c2.expansion := by
    rw [hexp]
    obtain ⟨hodd, hmid⟩ := C25_specular_middle hb
    exact ⟨Nat.odd_iff.1 hodd, fun i hi => hmid i (by rw [Nat.odd_iff] at hodd; omega)⟩
  have hs' := hsrc
  rw [hs, Option.some.injEq] at hs'
  have hw : src.wavelength = wl := by rw [hs']
  have hte : src.te = te := by rw [hs']
  have htm : src.tm = tm := by rw [hs']
  have hks : src.kp = k := by rw [hs']
  have hkz : src.kzi = star (csqrt (((2 * Real.pi / wl : ℝ) : ℂ) ^ 2 * er - k.1 ^ 2 - k.2 ^ 2)) := by
    rw [hs']
  obtain ⟨inc, i0, Ms, p, q, hi0, hx, hy, hinc, hM, hp, hq, hch, hpos, hF, hG⟩ :=
    energy_balance he hcen hdv hi hie ho h3 hs hkp (by rw [hw]; exact hwl) hf
  rw [hexp, hw] at hx hy hM hch hpos hF hG
  have hM := layerEquations_congr hL hM
  obtain rfl := layerEquations_unique hM hM'
  rw [hkp] at hinc hks
  rw [← hks] at hkz
  rw [hte, htm] at hinc
  have hk0 : 0 < 2 * Real.pi / wl := by have := Real.pi_pos; positivity
  obtain ⟨hn0, u, v, huv, hu, hv, horth, hun, hvn⟩ := incident_pol hk0 hi0 hx hy hpos hkz hcut hinc
  rw [incident_waveNorm hk0 hi0 hx hy hpos hkz hcut hinc] at hF
  have hκ' : κ2 = orderKx c.expansion kp wl i0 ^ 2 + orderKy c.expansion kp wl i0 ^ 2 := by rw [hκ, hx, hy]
  rw [hκ'] at hg
  obtain ⟨-, a1, a2⟩ := pol_scatters hu (hgr i0) (hgt i0) hr0 hS (pol_chain hM hd hu hg
    ![1, outerAdmittance .te (orderKx c.expansion kp wl i0 ^ 2 + orderKy c.expansion kp wl i0 ^ 2) et])
  obtain ⟨-, b1, b2⟩ := pol_scatters hv (hgr i0) (hgt i0) hr0 hS (pol_chain hM hd hv hg
    ![1, outerAdmittance .tm (orderKx c.expansion kp wl i0 ^ 2 + orderKy c.expansion kp wl i0 ^ 2) et])
  rw [← hκ'] at a1 a2 b1 b2
  obtain ⟨hb1, hq1⟩ := (hS p q).2 hch
  rw [hp, hq, mulVec_zero, add_zero, huv, mulVec_add] at hb1 hq1
  rw [a1, b1] at hb1
  rw [a2, b2] at hq1
  have hpf := hp
  rw [huv] at hpf
  have k1 := fluxZ_single hgr (i0 := i0) (p := p) (by
    intro j hj
    rw [hpf, hb1]
    simp [orderWave_other hj]) (fun h => absurd hpos (not_lt.2 h.le))
  have k2 := fluxZ_single hgt (i0 := i0) (p := q) (by
    intro j hj
    rw [hq, hq1]
    simp [orderWave_other hj]) (fun _ => by rw [hq]; simp)
  rw [hF, mul_sub, mul_sub, hb1, pol_power (hgr i0) hu hv horth, hpf] at k1
  rw [hG, hq, mul_sub, hq1, pol_power (hgt i0) hu hv horth] at k2
  rw [← huv, incident_waveNorm hk0 hi0 hx hy hpos hkz hcut hinc, outerKz_pos hpos, Complex.ofReal_re, ← hκ'] at k1
  rw [← hκ'] at k2
  have hw0 : ∀ kz : Fin N → ℂ, waveNorm (orderKx c.expansion kp wl) (orderKy c.expansion kp wl) kz 0 i0 = 0 := by
    intro kz; simp [waveNorm]
  rw [hw0, mul_zero, sub_zero] at k2
  have hsub : er - κ2 = er - orderKx c.expansion kp wl i0 ^ 2 - orderKy c.expansion kp wl i0 ^ 2 := by rw [hκ']; ring
  have t1 : (outerAdmittance .te κ2 er).re =
      Real.sqrt (er - orderKx c.expansion kp wl i0 ^ 2 - orderKy c.expansion kp wl i0 ^ 2) := by
    simp only [outerAdmittance, Polarisation.admittance, hsub, outerKz_pos hpos, Complex.ofReal_re]
  have t2 : (outerAdmittance .tm κ2 er).re =
      er / Real.sqrt (er - orderKx c.expansion kp wl i0 ^ 2 - orderKy c.expansion kp wl i0 ^ 2) := by
    simp only [outerAdmittance, Polarisation.admittance, hsub, outerKz_pos hpos]
    rw [← Complex.ofReal_div, Complex.ofReal_re]
  have hsq := Real.sq_sqrt hpos.le
  have hs0 := Real.sqrt_pos.2 hpos
  rw [← hsq] at hvn
  rw [t1, t2]
  rw [t1, t2] at k1
  set s := Real.sqrt (er - orderKx c.expansion kp wl i0 ^ 2 - orderKy c.expansion kp wl i0 ^ 2)
  have hv2 : ‖v.1‖ ^ 2 + ‖v.2‖ ^ 2 = s ^ 2 / er * (‖tm‖ ^ 2 / (‖te‖ ^ 2 + ‖tm‖ ^ 2)) := by
    field_simp
    field_simp at hvn
    linarith
  rw [hun, hv2] at k1 k2
  constructor
  · field_simp at k1 ⊢
    linarith
  · field_simp at k2 ⊢
    linarith

end

end Khepri
