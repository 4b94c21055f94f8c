import Verif.Lemmas.FieldsUser
import Verif.Props.Crystal

/-!
The fields of the default source, against the fluxes.
-/

set_option linter.unusedSectionVars false

namespace Khepri

open Matrix

section
variable {n : Type} [Fintype n] [DecidableEq n]

theorem maxwellTransfer_smul {P Q : Matrix n n ℂ} {t : ℝ} {F G : Tang n} (a : ℂ) (h : MaxwellTransfer P Q t F G) :
    MaxwellTransfer P Q t ⟨a • F.E, a • F.H⟩ ⟨a • G.E, a • G.H⟩ := by
  unfold MaxwellTransfer at *
  have e : ∀ u v : n → ℂ, Sum.elim (a • u) (a • v) = a • Sum.elim u v := by
    intro u v; funext j; cases j <;> rfl
  rw [e, e, h, mulVec_smul]

theorem maxwellChain_smul (a : ℂ) : ∀ {Ms : List (Matrix n n ℂ × Matrix n n ℂ × ℝ)} {F G : Tang n},
    MaxwellChain Ms F G → MaxwellChain Ms ⟨a • F.E, a • F.H⟩ ⟨a • G.E, a • G.H⟩
  | [], F, G, h => by simp only [MaxwellChain] at h ⊢; rw [h]
  | M :: Ms, F, G, ⟨K, h1, h2⟩ => ⟨_, maxwellTransfer_smul a h1, maxwellChain_smul a h2⟩

end

section
variable {ι : Type} [Fintype ι] [DecidableEq ι]

theorem outerField_smul (kx ky : ι → ℝ) (er : ℝ) (p : Port (ι ⊕ ι)) (a : ℂ) :
    outerField kx ky er ⟨a • p.fwd, a • p.bwd⟩ = ⟨a • (outerField kx ky er p).E, a • (outerField kx ky er p).H⟩ := by
  simp only [outerField, Tang.mk.injEq, smul_add, true_and]
  rw [← mulVec_smul]
  congr 1
  funext j
  simp only [Pi.smul_apply, smul_eq_mul]
  ring

/-- An electric field without magnetic field is made of two equal waves. -/
theorem outerField_half (kx ky : ι → ℝ) (er : ℝ) (v : ι ⊕ ι → ℂ) :
    outerField kx ky er ⟨(1 / 2 : ℂ) • v, (1 / 2 : ℂ) • v⟩ = ⟨v, 0⟩ := by
  simp only [outerField, Tang.mk.injEq, sub_self, zero_div]
  refine ⟨?_, ?_⟩
  · rw [← add_smul]; norm_num
  · exact mulVec_zero _

theorem fluxZ_smul (F : Tang (ι ⊕ ι)) (a : ℝ) : fluxZ ⟨(a : ℂ) • F.E, (a : ℂ) • F.H⟩ = a ^ 2 * fluxZ F := by
  unfold fluxZ
  rw [mul_neg]
  congr 1
  have : ∑ i, (star (((a : ℂ) • F.E) (.inl i)) * ((a : ℂ) • F.H) (.inr i) -
      star (((a : ℂ) • F.E) (.inr i)) * ((a : ℂ) • F.H) (.inl i)) = ((a ^ 2 : ℝ) : ℂ) *
      ∑ i, (star (F.E (.inl i)) * F.H (.inr i) - star (F.E (.inr i)) * F.H (.inl i)) := by
    rw [Finset.mul_sum]
    refine Finset.sum_congr rfl fun i _ => ?_
    simp only [Pi.smul_apply, smul_eq_mul, star_mul', Complex.star_def, Complex.conj_ofReal]
    push_cast; ring
  rw [this, Complex.im_ofReal_mul]

theorem losslessMat_real (er : ℝ) : LosslessMat ((er : ℂ) • (1 : Matrix ι ι ℂ)) := by
  intro u
  rw [smul_mulVec, one_mulVec, dotProduct_smul, smul_eq_mul, Complex.im_ofReal_mul, dotProduct, Complex.im_sum]
  rw [Finset.sum_eq_zero, mul_zero]
  intro i _
  rw [Pi.star_apply, Complex.star_def, mul_comm, Complex.mul_conj, Complex.ofReal_im]

end

variable {N : ℕ} {lib : NumLib} {order : List String} {c c1 c2 c3 : Crystal N} {stack : List String}
  {m : Bool ⊕ List Bool} {Ls : List (Layer N)} {er et : ℝ} {wl : ℝ} {te tm : ℂ} {theta phi : ℝ}
  {kpo : Option (ℂ × ℂ)}

theorem layerEquations_unique {jv1 : ℝ → ℝ} {e : Expansion N} {kx ky : Fin N → ℝ} {k0 : ℝ}
    {Ms Ms' : List (Mat2 N × Mat2 N × ℝ)} (h : LayerEquations jv1 e kx ky k0 Ls Ms)
    (h' : LayerEquations jv1 e kx ky k0 Ls Ms') : Ms = Ms' := by
  refine forall₂_functional ?_ h h'
  rintro l M M' ⟨C, hC, -, rfl⟩ ⟨C', hC', -, rfl⟩
  rw [permittivity_unique hC hC']

theorem source_flux (he : EigContract (lib.eig N)) (hb : Built c.expansion) (hc : FreshDevice c stack m Ls er et)
    (h1 : c.setDevice stack m = .ok c1) (h2 : c1.setSource wl te tm theta phi kpo = .ok c2)
    (ho : SetOrder ("Sref" :: (stack ++ ["Strans"])) order) (h3 : c2.solve lib order = .ok c3)
    (hwl : 0 < wl) {src : Source} (hs : c2.source = some src) {kp : ℝ × ℝ} (hkp : src.kp = (↑kp.1, ↑kp.2))
    (hcut : (kp.1 = 0 ∧ kp.2 = 0) ∨ (1 / 10 ^ 8) ^ 2 ≤ kp.1 ^ 2 + kp.2 ^ 2)
    (hpos : ∀ l ∈ Ls, 0 ≤ l.depth) {f : Crystal.Fluxes N} (hf : c3.poyntingFluxEnd = .ok f) :
    ∃ inc, incident N te tm ⟨kp.1, kp.2, src.kzi⟩ = .ok inc ∧ c3.sourceFields = .ok (inc, 0) ∧
    ∃ Φ : ℝ → Tang (Fin N ⊕ Fin N),
      (∃ b, Φ 0 = outerField (orderKx c.expansion kp wl) (orderKy c.expansion kp wl) er ⟨(1 / 2 : ℂ) • inc, b⟩) ∧
      (∀ z, RequestedAt (Ls.map Layer.depth) (Crystal.maskList stack m) z → Unclamped c3 z →
        (z ≤ (Ls.map Layer.depth).sum ∨ et = 1) →
        ∃ F, c3.fourierFields z inc 0 = .ok F ∧ F.transverse = Φ z) ∧
      (∀ z ≤ 0, fluxZ (Φ z) = Real.sqrt (er - (kp.1 / (2 * Real.pi / wl)) ^ 2 - (kp.2 / (2 * Real.pi / wl)) ^ 2) / 4 *
        (1 - f.R)) ∧
      (∀ z, (Ls.map Layer.depth).sum ≤ z → fluxZ (Φ z) =
        Real.sqrt (er - (kp.1 / (2 * Real.pi / wl)) ^ 2 - (kp.2 / (2 * Real.pi / wl)) ^ 2) / 4 * f.T) := by
  obtain ⟨lr, lt, Ls', k, hd, hL, hexp, hi, hie, hwl', hk, hsrc, -⟩ := fresh_standard hc h1 h2
  have hcen : Centered c2.expansion := by
    rw [hexp]
    obtain ⟨hodd, hmid⟩ := C25_specular_middle hb
    exact ⟨Nat.odd_iff.1 hodd, fun i hi => hmid i (by rw [Nat.odd_iff] at hodd; omega)⟩
  have hs' := hsrc
  rw [hs, Option.some.injEq] at hs'
  have hw : src.wavelength = wl := by rw [hs']
  have hte : src.te = te := by rw [hs']
  have htm : src.tm = tm := by rw [hs']
  have hks : src.kp = k := by rw [hs']
  have hkz : src.kzi = star (csqrt (((2 * Real.pi / wl : ℝ) : ℂ) ^ 2 * er - k.1 ^ 2 - k.2 ^ 2)) := by
    rw [hs']
  obtain ⟨inc, i0, Ms, p, q, hi0, hx, hy, hinc, hM, hp, hq, hch, hpos', hF, hG⟩ :=
    energy_balance he hcen hd hi hie ho h3 hs hkp (by rw [hw]; exact hwl) hf
  rw [hexp, hw] at hx hy hM hch hpos' hF hG
  rw [hkp] at hks
  rw [← hks] at hkz
  have hinc0 := hinc
  rw [hkp] at hinc
  have hk0 : 0 < 2 * Real.pi / wl := by have := Real.pi_pos; positivity
  rw [incident_waveNorm hk0 hi0 hx hy hpos' hkz hcut hinc] at hF
  rw [hx, hy] at hF hG
  have hM := layerEquations_congr hL hM
  obtain ⟨er0, et0, -, Ms', hM', hA⟩ := fields_core he hc h1 h2 ho h3 hs hkp hpos
  obtain rfl := layerEquations_unique hM hM'
  obtain ⟨Φ, hΦ, hU, hQ⟩ := hA ((1 / 2 : ℂ) • inc)
  have hds : ∀ d ∈ Ls.map Layer.depth, 0 ≤ d := by simpa using hpos
  have hlen : Ms.length = (Ls.map Layer.depth).length := by rw [List.length_map]; exact hM.length_eq.symm
  obtain ⟨Ψ, hΨ, hΨ0⟩ := deviceField_exists (k0 := 2 * Real.pi / wl)
    (Mr := (maxwellP (fun i => (orderKx c.expansion kp wl i : ℂ)) (fun i => (orderKy c.expansion kp wl i : ℂ)) ((er : ℂ) • 1),
      maxwellQ (fun i => (orderKx c.expansion kp wl i : ℂ)) (fun i => (orderKy c.expansion kp wl i : ℂ)) ((er : ℂ) • 1)))
    (Mt := (maxwellP (fun i => (orderKx c.expansion kp wl i : ℂ)) (fun i => (orderKy c.expansion kp wl i : ℂ)) ((et : ℂ) • 1),
      maxwellQ (fun i => (orderKx c.expansion kp wl i : ℂ)) (fun i => (orderKy c.expansion kp wl i : ℂ)) ((et : ℂ) • 1)))
    hlen hds (outerField (orderKx c.expansion kp wl) (orderKy c.expansion kp wl) er
      ⟨(1 / 2 : ℂ) • p.fwd, (1 / 2 : ℂ) • p.bwd⟩)
  have hMd : List.Forall₂ (fun M d => M.2.2 = d * (2 * Real.pi / wl)) Ms (Ls.map Layer.depth) := by
    rw [List.forall₂_map_right_iff]
    refine (List.Forall₂.imp ?_ hM).flip
    rintro l M ⟨C, -, -, rfl⟩
    rfl
  have hΨD : Ψ (Ls.map Layer.depth).sum = outerField (orderKx c.expansion kp wl) (orderKy c.expansion kp wl) et
      ⟨(1 / 2 : ℂ) • q.fwd, (1 / 2 : ℂ) • q.bwd⟩ := by
    have e1 := hΨ.chain hds hMd
    rw [hΨ0, outerField_smul] at e1
    rw [outerField_smul]
    exact maxwellChain_functional e1 (maxwellChain_smul _ hch)
  have hΨΦ : Ψ = Φ := by
    refine hU Ψ ⟨hΨ, ⟨(1 / 2 : ℂ) • p.bwd, ?_⟩, ⟨(1 / 2 : ℂ) • q.fwd, ?_⟩⟩
    · rw [hΨ0, hp]
    · rw [hΨD, hq, smul_zero]
  subst hΨΦ
  refine ⟨inc, ?_, ?_, Ψ, ⟨(1 / 2 : ℂ) • p.bwd, by rw [hΨ0, hp]⟩, ?_, ?_, ?_⟩
  · rw [hte, htm] at hinc; exact hinc
  · simp only [Crystal.sourceFields, Crystal.solve_keeps_source h3, hs, Crystal.attr, ok_bind, hinc0]
    rfl
  · intro z hz hu hD
    obtain ⟨F, f1, f2, f3, -⟩ := hQ z hz hu ((1 / 2 : ℂ) • inc) inc 0 (outerField_half _ _ _ _)
    refine ⟨F, f1, ?_⟩
    rcases le_or_gt z (Ls.map Layer.depth).sum with hzD | hzD
    · exact f2 hzD
    · obtain rfl := hD.resolve_left (not_le.2 hzD)
      obtain ⟨t, ht⟩ := hΦ.outgoing
      exact (f3 hzD t ht).2 rfl
  · intro z hz
    have e1 := hΨ.before z 0 hz le_rfl
    rw [maxwellTransfer_iff_flow] at e1
    have e2 := power_flow_const (kx := orderKx c.expansion kp wl) (ky := orderKy c.expansion kp wl)
      (C := (er : ℂ) • 1) (smul_one_det (by exact_mod_cast er0)) (losslessMat_real er) (Ψ z) (2 * Real.pi / wl * (0 - z))
    rw [← e1] at e2
    rw [← e2, hΨ0, outerField_smul]
    have := fluxZ_smul (outerField (orderKx c.expansion kp wl) (orderKy c.expansion kp wl) er p) (1 / 2)
    push_cast at this
    rw [this, hF]; ring
  · intro z hz
    have e1 := hΨ.after _ z le_rfl hz
    rw [maxwellTransfer_iff_flow] at e1
    have e2 := power_flow_const (kx := orderKx c.expansion kp wl) (ky := orderKy c.expansion kp wl)
      (C := (et : ℂ) • 1) (smul_one_det (by exact_mod_cast et0)) (losslessMat_real et)
      (Ψ (Ls.map Layer.depth).sum) (2 * Real.pi / wl * (z - (Ls.map Layer.depth).sum))
    rw [← e1] at e2
    rw [e2, hΨD, outerField_smul]
    have := fluxZ_smul (outerField (orderKx c.expansion kp wl) (orderKy c.expansion kp wl) et q) (1 / 2)
    push_cast at this
    rw [this, hG]; ring

/-- No reflected amplitudes, no reflected flux. -/
theorem fluxEnd_no_reflection {f : Crystal.Fluxes N} (hf : c.poyntingFluxEnd = .ok f)
    {st : Stacked (Fin N ⊕ Fin N)} (hst : c.stacked = some st) (h : st.Stot.s11 = 0) : f.R = 0 := by
  obtain ⟨st', src, inc, ref, tr, Wref, Wtrans, T, R, e1, -, -, -, -, -, -, -, -, hR, rfl⟩ :=
    Crystal.poyntingFluxEnd_eq_ok.1 hf
  rw [hst, Option.some.injEq] at e1
  subst e1
  rw [h, Matrix.mul_zero, zero_mulVec] at hR
  obtain ⟨-, kx, ky, kz, -, -, -, h2, h1⟩ := poyntingFluxes_eq_ok.1 hR
  rw [h1, h2]
  simp

end Khepri
