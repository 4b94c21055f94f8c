import Verif.Lemmas.Embed
import Verif.Spec.Embed
import Verif.Props.Twisted

set_option linter.unusedSectionVars false

/-!
Outcomes of solved devices.
-/

namespace Khepri

open Matrix

section
variable {N n : ℕ}

/-- The fluxes of a solved device of any layers, order by order. -/
theorem AnySolved.fluxes {lib : NumLib} {c c' : Crystal N} {stack : List String} {mask : List Bool}
    {lr lt : Layer N} {As As' : List (AnyLayer N)} {Ss : List (SMat (Fin N ⊕ Fin N))} {er et : ℝ} {src : Source}
    {kxc kyc : Fin N → ℂ} {W0 V0 : Mat2 N} {rr rt : Solved N} {st : Stacked (Fin N ⊕ Fin N)}
    (hd : AnyDevice c stack mask lr As lt er et) (hi : c.epsi = er) (hie : c.epse = et)
    (h : AnySolved lib c c' stack mask lr As lt er et src kxc kyc W0 V0 rr As' Ss rt st)
    {kp : ℝ × ℝ} (hkp : src.kp = (↑kp.1, ↑kp.2))
    (hwl : 0 < src.wavelength) {f : Crystal.Fluxes N} (hf : c'.poyntingFluxEnd = .ok f) :
    ∃ inc : Vec2 N, incident N src.te src.tm ⟨kp.1, kp.2, src.kzi⟩ = .ok inc ∧
      let kx := orderKx c.expansion kp src.wavelength
      let ky := orderKy c.expansion kp src.wavelength
      let x0 := er - (kp.1 / (2 * Real.pi / src.wavelength)) ^ 2 - (kp.2 / (2 * Real.pi / src.wavelength)) ^ 2
      0 < x0 ∧
      (∀ i, f.Rg i = (outerKz (er - kx i ^ 2 - ky i ^ 2)).re / Real.sqrt x0 *
        waveNorm kx ky (fun i => outerKz (er - kx i ^ 2 - ky i ^ 2)) (st.Stot.s11 *ᵥ inc) i) ∧
      (∀ i, f.Tg i = (outerKz (et - kx i ^ 2 - ky i ^ 2)).re / Real.sqrt x0 *
        waveNorm kx ky (fun i => outerKz (et - kx i ^ 2 - ky i ^ 2)) (st.Stot.s21 *ᵥ inc) i) ∧
      f.R = ∑ i, f.Rg i ∧ f.T = ∑ i, f.Tg i := by
  obtain ⟨rfl, rfl⟩ := h.real hkp
  obtain ⟨hgr, hWr, -, hor⟩ := halfSpaceModes_outer h.ref_modes
  obtain ⟨hgt, hWt, -, hot⟩ := halfSpaceModes_outer h.trans_modes
  obtain ⟨st', src', inc, ref, tr, Wref, Wtrans, T, R, h1, h2, h3, h4, h5, h6, h7, h8, hT, hR, rfl⟩ :=
    Crystal.poyntingFluxEnd_eq_ok.1 hf
  have hst : c'.stacked = some st := by rw [h.rest']
  have hcs : c'.source = some src := by rw [h.rest']; exact h.source
  have hce : c'.expansion = c.expansion := by rw [h.rest']
  have hci : c'.epsi = (er : ℂ) := by rw [h.rest']; exact hi
  have hcx : c'.epse = (et : ℂ) := by rw [h.rest']; exact hie
  rw [hst, Option.some.injEq] at h1
  rw [hcs, Option.some.injEq] at h2
  subst h1 h2
  rw [h.ref', Option.some.injEq] at h4
  rw [h.trans', Option.some.injEq] at h7
  subst h4 h7
  simp only [AnyLayer.W, Layer.store, hd.ref_fields, hd.trans_fields, if_true, Option.some.injEq] at h5 h8
  rw [hWr] at h5
  rw [hWt] at h8
  subst h5 h8
  rw [hce, hci, hcx, hkp, Matrix.one_mul, inv_one, one_mulVec] at hT
  rw [hce, hci, hkp, Matrix.one_mul, inv_one, one_mulVec] at hR
  obtain ⟨hz0, -, hTi, hTt⟩ := poyntingFluxes_real hwl hT
  obtain ⟨-, -, hRi, hRt⟩ := poyntingFluxes_real hwl hR
  obtain ⟨hpos, hz1⟩ := outerKz_re_ne_zero hz0
  rw [hz1, Complex.ofReal_re] at hTi hRi
  rw [hkp] at h3
  exact ⟨inc, h3, hpos, hRi, hTi, hRt, hTt⟩

/-- What a plain device gives. -/
theorem DeviceRun.outcome {lib : NumLib} {c c3 : Crystal N} {stack : List String}
    {m : Bool ⊕ List Bool} {Ls : List (Layer N)} {er et wl : ℝ} {te tm : ℂ}
    {theta phi : ℝ} {kpo : Option (ℂ × ℂ)} {kp : R2} (he : EigContract (lib.eig N))
    (h : DeviceRun lib c stack m Ls er et wl te tm theta phi kpo kp c3) (hwl : 0 < wl)
    {f : Crystal.Fluxes N} (hf : c3.poyntingFluxEnd = .ok f) :
    ∃ (st : Stacked (Fin N ⊕ Fin N)) (Ms : List (Mat2 N × Mat2 N × ℝ)) (inc : Vec2 N), c3.stacked = some st ∧
      LayerEquations lib.jv1 c.expansion (orderKx c.expansion kp wl) (orderKy c.expansion kp wl)
        (2 * Real.pi / wl) Ls Ms ∧
      incident N te tm ⟨kp.1, kp.2, star (csqrt (((2 * Real.pi / wl : ℝ) : ℂ) ^ 2 * er - (kp.1 : ℂ) ^ 2 - (kp.2 : ℂ) ^ 2))⟩ = .ok inc ∧
      0 < er - (kp.1 / (2 * Real.pi / wl)) ^ 2 - (kp.2 / (2 * Real.pi / wl)) ^ 2 ∧
      Outcome (orderKx c.expansion kp wl) (orderKy c.expansion kp wl) er et
        (er - (kp.1 / (2 * Real.pi / wl)) ^ 2 - (kp.2 / (2 * Real.pi / wl)) ^ 2) Ms st.Stot inc f := by
  obtain ⟨st, inc, hst, hinc, hpos, r1, r2, r3, r4⟩ := h.fluxes hwl hf
  obtain ⟨hc, c1, c2, order, src, h1, h2, ho, h3, hs, hkp⟩ := h
  obtain ⟨st', Ms, hst', hM, hS⟩ := C12_crystal he hc h1 h2 ho h3 hs hkp
  rw [hst, Option.some.injEq] at hst'
  subst hst'
  exact ⟨st, Ms, inc, hst, hM, hinc, hpos, ⟨hS, r1, r2, r3, r4⟩⟩

/-- What a stack of layers of two lattices gives. -/
theorem TwistedRun.outcome {M : ℕ} {lib : NumLib} {tag : ℕ} {lhs rhs : Expansion M} {se : SumExpansion M}
    {c c3 : Crystal (M * M)} {stack : List String} {m : Bool ⊕ List Bool} {Ls : List (TwistedLayer M)}
    {er et wl : ℝ} {te tm : ℂ} {theta phi : ℝ} {kpo : Option (ℂ × ℂ)} {kp : R2} (he : ∀ n, EigContract (lib.eig n))
    (hse : lhs.add tag rhs = .ok se)
    (h : TwistedRun lib se c stack m Ls er et wl te tm theta phi kpo kp c3) (hwl : 0 < wl)
    {f : Crystal.Fluxes (M * M)} (hf : c3.poyntingFluxEnd = .ok f) :
    ∃ (st : Stacked (Fin (M * M) ⊕ Fin (M * M))) (Ms : List (Mat2 (M * M) × Mat2 (M * M) × ℝ)) (inc : Vec2 (M * M)),
      c3.stacked = some st ∧
      TwistedEquations lib.jv1 lhs rhs (orderKx se.exp kp wl) (orderKy se.exp kp wl) (2 * Real.pi / wl) Ls Ms ∧
      incident (M * M) te tm ⟨kp.1, kp.2, star (csqrt (((2 * Real.pi / wl : ℝ) : ℂ) ^ 2 * er - (kp.1 : ℂ) ^ 2 - (kp.2 : ℂ) ^ 2))⟩ = .ok inc ∧
      0 < er - (kp.1 / (2 * Real.pi / wl)) ^ 2 - (kp.2 / (2 * Real.pi / wl)) ^ 2 ∧
      Outcome (orderKx se.exp kp wl) (orderKy se.exp kp wl) er et
        (er - (kp.1 / (2 * Real.pi / wl)) ^ 2 - (kp.2 / (2 * Real.pi / wl)) ^ 2) Ms st.Stot inc f := by
  obtain ⟨hc, c1, c2, order, src, h1, h2, ho, h3, hs, hkp⟩ := h
  obtain ⟨st', Ms, hst', hM, hS⟩ := C85_maxwell he hse hc h1 h2 ho h3 hs hkp
  obtain ⟨lr, lt, As, k, hAs, hd, hexp, hi, hie, hsrc⟩ := twisted_device hc h1 h2
  obtain ⟨src', kxc, kyc, W0, V0, rr, As', Ss, rt, st, h⟩ := anySolved hd ho h3
  have hs' := h.source
  rw [hs, Option.some.injEq] at hs'
  subst hs'
  rw [hs, Option.some.injEq] at hsrc
  have hw : src.wavelength = wl := by rw [hsrc]
  have hte : src.te = te := by rw [hsrc]
  have htm : src.tm = tm := by rw [hsrc]
  have hks : k = (↑kp.1, ↑kp.2) := by rw [← hkp, hsrc]
  have hkz : src.kzi = star (csqrt (((2 * Real.pi / wl : ℝ) : ℂ) ^ 2 * er - (kp.1 : ℂ) ^ 2 - (kp.2 : ℂ) ^ 2)) := by
    rw [hsrc, hks]
  obtain ⟨inc, hinc, hpos, r1, r2, r3, r4⟩ := h.fluxes hd hi hie hkp (by rw [hw]; exact hwl) hf
  rw [hw] at hpos r1 r2
  rw [hexp] at r1 r2
  rw [hte, htm, hkz] at hinc
  have hst : c3.stacked = some st := by rw [h.rest']
  rw [hst, Option.some.injEq] at hst'
  subst hst'
  exact ⟨st, Ms, inc, hst, hM, hinc, hpos, ⟨hS, r1, r2, r3, r4⟩⟩

/-- A permittivity of the large space that acts on the embedded orders as the small one. -/
theorem embed_fit {f : Fin n → Fin N} {d : Fin n → ℂ} (hf : Function.Injective f) {C : Matrix (Fin n) (Fin n) ℂ}
    {C' : Matrix (Fin N) (Fin N) ℂ} (h : ∀ a b, C' (f a) (f b) * d b = d a * C a b)
    (h0 : ∀ x, (∀ a, x ≠ f a) → ∀ b, C' x (f b) = 0) : C' * embedMat f d = embedMat f d * C := by
  ext x b
  have e : (C' * embedMat f d) x b = C' x (f b) * d b := by
    simp [Matrix.mul_apply, embedMat]
  rw [e]
  by_cases hx : ∃ a, x = f a
  · obtain ⟨a, rfl⟩ := hx
    rw [h]
    simp [Matrix.mul_apply, embedMat, hf.eq_iff]
  · have hx' : ∀ a, x ≠ f a := fun a ha => hx ⟨a, ha⟩
    rw [h0 x hx' b]
    simp [Matrix.mul_apply, embedMat, hx']

/-- The equations of a layer, from its permittivity. -/
theorem carry_layer {f : Fin n → Fin N} {d : Fin n → ℂ} {o : Turn} {kx ky : Fin n → ℝ} {kx' ky' : Fin N → ℝ}
    (hk : ∀ b, (kx' (f b), ky' (f b)) = o.app (kx b, ky b)) {C : Matrix (Fin n) (Fin n) ℂ}
    {C' : Matrix (Fin N) (Fin N) ℂ} (hC : C.det ≠ 0) (hC' : C'.det ≠ 0)
    (h : C' * embedMat f d = embedMat f d * C) :
    maxwellP (fun i => (kx' i : ℂ)) (fun i => (ky' i : ℂ)) C' * ((o.e : ℂ) • carryMat f d o) =
      carryMat f d o * maxwellP (fun i => (kx i : ℂ)) (fun i => (ky i : ℂ)) C ∧
    maxwellQ (fun i => (kx' i : ℂ)) (fun i => (ky' i : ℂ)) C' * carryMat f d o =
      ((o.e : ℂ) • carryMat f d o) * maxwellQ (fun i => (kx i : ℂ)) (fun i => (ky i : ℂ)) C := by
  rw [maxwellP_eq, maxwellP_eq, maxwellQ_eq, maxwellQ_eq]
  exact ⟨carry_curl hk (embed_inv hC hC' h) (by simp), carry_curl' hk (by simp) h⟩

end

end Khepri
