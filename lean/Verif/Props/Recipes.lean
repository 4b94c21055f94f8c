import Verif.Lemmas.Recipes
import Verif.Lemmas.ExamplePlate

/-!
# Property C76: the matrix interface and the crystal interface agree
-/

namespace Khepri

open Matrix

variable {N : ℕ}

/-- **C76.** `scattering_uniform_layer` and `Layer.uniform(…).solve(…)` return the same matrices, or fail with the same
exception. -/
theorem C76_uniform (lib : NumLib) (e : Expansion N) (kp : ℂ × ℂ) (wl : ℝ) (eps : ℂ) (d : ℝ) :
    (scatteringUniformLayer e kp wl eps d).map (fun r => (some r.S, some r.L, some r.W, some r.V)) =
      (Layer.solve lib { Layer.uniform e eps d with fields := true } kp wl).map (fun l => (l.S, l.L, l.W, l.V)) := by
  rw [uniform_scattering lib]
  simp only [Layer.solve, Layer.uniform]
  cases (Form.uniform eps).solve lib e d kp wl <;> rfl

/-- **C76.** The same for `scattering_structured_layer` and `Layer.pixmap(…).solve(…)`. -/
theorem C76_structured (lib : NumLib) (e : Expansion N) (kp : ℂ × ℂ) (wl : ℝ) (map : Arr2) (d : ℝ) :
    (scatteringStructuredLayer lib e kp wl map d).map (fun r => (some r.S, some r.L, some r.W, some r.V)) =
      (Layer.solve lib { Layer.pixmap e map d with fields := true } kp wl).map (fun l => (l.S, l.L, l.W, l.V)) := by
  rw [structured_scattering lib]
  simp only [Layer.solve, Layer.pixmap]
  cases (Form.fft map).solve lib e d kp wl <;> rfl

section
variable {lib : NumLib} {c c3 : Crystal N} {stack : List String} {m : Bool ⊕ List Bool} {Ls : List (Layer N)}
  {er et wl : ℝ} {te tm : ℂ} {theta phi : ℝ} {kpo : Option (ℂ × ℂ)} {kp : R2} {Ss : List (SMat (Fin N ⊕ Fin N))}
  {T : SMat (Fin N ⊕ Fin N)} {kx ky kz : Fin N → ℂ} {W0 V0 : Mat2 N}

/-- The total matrix of a solved crystal and the matrices of the single layers. -/
theorem run_matrices (h : DeviceRun lib c stack m Ls er et wl te tm theta phi kpo kp c3)
    (hS : List.Forall₂ (StandAlone lib ((kp.1 : ℂ), (kp.2 : ℂ)) wl) Ls Ss) : ∃ rr rt st,
    (Form.halfInc er).solve lib c.expansion 0 ((kp.1 : ℂ), (kp.2 : ℂ)) wl = .ok rr ∧
    (Form.halfTrn et).solve lib c.expansion 0 ((kp.1 : ℂ), (kp.2 : ℂ)) wl = .ok rt ∧ c3.stacked = some st ∧
    ∀ p q, Scatters st.Stot p q ↔ Chain (rr.S :: (Ss ++ [rt.S])) p q := by
  obtain ⟨hc, c1, c2, order, src, h1, h2, ho, h3, hs, hkp⟩ := h
  obtain ⟨lr, lt, Ls', k, hd, hL, hexp, hi, hie, hwl', hk, hsrc, -⟩ := fresh_standard hc h1 h2
  obtain ⟨src', rr, rs, rt, st, hs', hrr, hrs, hrt, hst, hch⟩ := device_matrices hd ho h3
  rw [hs, Option.some.injEq] at hs'
  subst hs'
  rw [hs, Option.some.injEq] at hsrc
  have hw : src.wavelength = wl := by rw [hsrc]
  rw [hkp, hw, hexp] at hrr hrt
  refine ⟨rr, rt, st, hrr, hrt, hst, ?_⟩
  have : rs.map Solved.S = Ss := by
    rw [hkp, hw] at hrs
    have key : ∀ (Ls Ls' : List (Layer N)) rs Ss, List.Forall₂ (fun l l' => l'.form = l.form ∧ l'.depth = l.depth) Ls Ls' →
        (∀ l ∈ Ls, l.expansion = c.expansion) → (∀ l ∈ Ls', l.expansion = c.expansion) →
        List.Forall₂ (fun (l : Layer N) r => l.form.solve lib l.expansion l.depth ((kp.1 : ℂ), (kp.2 : ℂ)) wl = .ok r)
          Ls' rs → List.Forall₂ (StandAlone lib ((kp.1 : ℂ), (kp.2 : ℂ)) wl) Ls Ss → rs.map Solved.S = Ss := by
      intro Ls Ls' rs Ss h
      induction h generalizing rs Ss with
      | nil => intro _ _ k1 k2; cases k1; cases k2; rfl
      | cons hll _ ih =>
        intro k1 k2 k3 k4
        cases k3 with
        | cons k3 t3 =>
        cases k4 with
        | cons k4 t4 =>
        rw [List.map_cons, ih _ _ (fun l hl => k1 l (by simp [hl])) (fun l hl => k2 l (by simp [hl])) t3 t4]
        obtain ⟨r, j1, rfl⟩ := standAlone_solve k4
        rw [k1 _ (List.mem_cons_self ..)] at j1
        rw [hll.1, hll.2, k2 _ (List.mem_cons_self ..), j1, Except.ok.injEq] at k3
        rw [k3]
    refine key _ _ _ _ hL (fun l hl => ?_) (fun l hl => ?_) hrs hS
    · obtain ⟨x, -, h⟩ := forall₂_mem_right hc.layers hl
      exact h.2.2
    · obtain ⟨x, -, h⟩ := forall₂_mem_right hd.layers hl
      rw [h.2.2, hexp]
  rw [← this]
  exact hch

/-- **C76.** Assembling a device by hand gives what a `Crystal` computes: the S-matrices of the two outer media from
`scattering_reflection` and `scattering_transmission`, those of the layers from `scattering_uniform_layer` and
`scattering_structured_layer`, multiplied with `redheffer_product` in any bracketing. -/
theorem C76_assembled (h : DeviceRun lib c stack m Ls er et wl te tm theta phi kpo kp c3)
    (hS : List.Forall₂ (StandAlone lib ((kp.1 : ℂ), (kp.2 : ℂ)) wl) Ls Ss)
    (hk : c.expansion.kVectors ((kp.1 : ℂ), (kp.2 : ℂ)) wl 1 = .ok (kx, ky, kz))
    (h0 : freeSpaceEigenmodes kx ky = .ok (W0, V0)) {Sr St : SMat (Fin N ⊕ Fin N)} {r t : Mat2 N × Mat2 N × Vec2 N}
    (hr : scatteringReflection kx ky W0 V0 er = .ok (Sr, r)) (ht : scatteringTransmission kx ky W0 V0 et = .ok (St, t))
    (hP : Assembled (Sr :: (Ss ++ [St])) T) : ∃ st, c3.stacked = some st ∧ st.Stot = T := by
  obtain ⟨rr, rt, st, hrr, hrt, hst, hch⟩ := run_matrices h hS
  obtain ⟨Wr, Vr, Lr⟩ := r
  obtain ⟨Wt, Vt, Lt⟩ := t
  have e1 : rr.S = Sr := by
    simp only [Form.solve, hk, ok_bind, h0, hr, bind_eq_ok] at hrr
    obtain ⟨ic, -, hrr⟩ := hrr
    simp only [pure, Except.pure, Except.ok.injEq] at hrr
    rw [← hrr]
  have e2 : rt.S = St := by
    simp only [Form.solve, hk, ok_bind, h0, ht, bind_eq_ok] at hrt
    obtain ⟨ic, -, hrt⟩ := hrt
    simp only [pure, Except.pure, Except.ok.injEq] at hrt
    rw [← hrt]
  rw [e1, e2] at hch
  exact ⟨st, hst, SMat.ext_scatters fun p q hpq => (assembled_chain hP p q).2 ((hch p q).1 hpq)⟩

/-- **C76.** For a device in vacuum the outer media can be left out, and the fluxes of `poynting_fluxes` are those of
`poynting_flux_end`, order by order. -/
theorem C76_vacuum (h : DeviceRun lib c stack m Ls 1 1 wl te tm theta phi kpo kp c3) (hwl : 0 < wl)
    (hS : List.Forall₂ (StandAlone lib ((kp.1 : ℂ), (kp.2 : ℂ)) wl) Ls Ss) (hP : Assembled Ss T)
    (hk : c.expansion.kVectors ((kp.1 : ℂ), (kp.2 : ℂ)) wl 1 = .ok (kx, ky, kz))
    (h0 : freeSpaceEigenmodes kx ky = .ok (W0, V0)) :
    (∃ st, c3.stacked = some st ∧ st.Stot = T) ∧
    ∀ f inc r t, c3.poyntingFluxEnd = .ok f →
      incident N te tm ⟨kp.1, kp.2, star (csqrt (((2 * Real.pi / wl : ℝ) : ℂ) ^ 2 - (kp.1 : ℂ) ^ 2 - (kp.2 : ℂ) ^ 2))⟩ =
        .ok inc →
      poyntingFluxes c.expansion ((W0 * T.s11 * W0⁻¹) *ᵥ inc) ((kp.1 : ℂ), (kp.2 : ℂ)) wl 1 1 = .ok r →
      poyntingFluxes c.expansion ((W0 * T.s21 * W0⁻¹) *ᵥ inc) ((kp.1 : ℂ), (kp.2 : ℂ)) wl 1 1 = .ok t →
      f.R = r.1 ∧ f.Rg = r.2 ∧ f.T = t.1 ∧ f.Tg = t.2 := by
  obtain ⟨rr, rt, st, hrr, hrt, hst, hch⟩ := run_matrices h hS
  have hW0 : W0 = 1 := by
    simp only [freeSpaceEigenmodes, bind_eq_ok, pure, Except.pure, Except.ok.injEq, Prod.mk.injEq] at h0
    obtain ⟨_, -, h, -⟩ := h0
    exact h.symm
  have hg : ∀ i, 1 - orderKx c.expansion kp wl i ^ 2 - orderKy c.expansion kp wl i ^ 2 ≠ 0 := by
    intro i
    have h1 := (freeSpaceEigenmodes_eq_ok.1 h0).1 i
    obtain ⟨-, e1, e2, -⟩ := kVectors_eq_ok.1 hk
    simp only at e1 e2
    rw [e1, e2] at h1
    intro hz
    apply h1
    have hz' := congrArg (fun x : ℝ => (x : ℂ)) hz
    simp only [orderKx, orderKy] at hz'
    push_cast at hz' ⊢
    exact hz'
  obtain ⟨rv, hv1, hv2, hvS, hvW, -⟩ := vacuum_halves lib c.expansion hwl.ne' kp hg
  rw [Complex.ofReal_one, hv1, Except.ok.injEq] at hrr
  rw [Complex.ofReal_one, hv2, Except.ok.injEq] at hrt
  rw [← hrr, ← hrt, hvS] at hch
  have hT : st.Stot = T := by
    refine SMat.ext_scatters fun p q hpq => (assembled_chain hP p q).2 ?_
    have := (hch p q).1 hpq
    simpa [Chain, chain_append, scatters_id] using this
  refine ⟨⟨st, hst, hT⟩, fun f inc r t hf hi hr ht => ?_⟩
  obtain ⟨hc, c1, c2, order, src, h1, h2, ho, h3, hs, hkp⟩ := h
  obtain ⟨st', inc', hst', hinc', hx, hR, hTg, hRs, hTs⟩ := device_fluxes hc h1 h2 ho h3 hwl hs hkp hf
  rw [hst, Option.some.injEq] at hst'
  subst hst'
  rw [Complex.ofReal_one, mul_one, hi, Except.ok.injEq] at hinc'
  subst hinc'
  rw [hT] at hR hTg
  rw [hW0, inv_one, Matrix.one_mul, Matrix.mul_one] at hr ht
  rw [← Complex.ofReal_one] at hr ht
  obtain ⟨-, -, k1, k2⟩ := poyntingFluxes_real hwl hr
  obtain ⟨-, -, k3, k4⟩ := poyntingFluxes_real hwl ht
  have e0 := outerKz_pos hx
  have eR : f.Rg = r.2 := by
    funext i
    rw [hR i, k1 i, e0, Complex.ofReal_re]
  have eT : f.Tg = t.2 := by
    funext i
    rw [hTg i, k3 i, e0, Complex.ofReal_re]
  exact ⟨by rw [hRs, k2, eR], eR, by rw [hTs, k4, eT], eT⟩

end

/-- The hypotheses of C76 hold for a plate of permittivity 4 in vacuum, given as a pixmap: the device as a crystal, and its
parts assembled by hand, with and without the outer media. -/
example : ∃ (c c3 : Crystal 1) (Ls : List (Layer 1)) (Ss : List (SMat (Fin 1 ⊕ Fin 1))) (f : Crystal.Fluxes 1)
    (T Sr St : SMat (Fin 1 ⊕ Fin 1)) (kx ky kz : Fin 1 → ℂ) (W0 V0 : Mat2 1) (r t : Mat2 1 × Mat2 1 × Vec2 1),
    DeviceRun plateLib c ["a"] (.inl true) Ls 1 1 1 1 0 0 0 (some (0, 0)) (0, 0) c3 ∧
    List.Forall₂ (StandAlone plateLib (((0 : ℝ) : ℂ), ((0 : ℝ) : ℂ)) 1) Ls Ss ∧
    c.expansion.kVectors (((0 : ℝ) : ℂ), ((0 : ℝ) : ℂ)) 1 1 = .ok (kx, ky, kz) ∧
    freeSpaceEigenmodes kx ky = .ok (W0, V0) ∧
    scatteringReflection kx ky W0 V0 ((1 : ℝ) : ℂ) = .ok (Sr, r) ∧
    scatteringTransmission kx ky W0 V0 ((1 : ℝ) : ℂ) = .ok (St, t) ∧
    Assembled (Sr :: (Ss ++ [St])) T ∧ Assembled Ss T ∧ c3.poyntingFluxEnd = .ok f := by
  obtain ⟨q, hq, hr⟩ := platePix_solve
  have hg : ∀ i, 1 - orderKx exampleExpansion (0, 0) 1 i ^ 2 - orderKy exampleExpansion (0, 0) 1 i ^ 2 ≠ 0 := by
    intro i; simp [orderKx, orderKy, exampleExpansion]
  obtain ⟨c3, st, h1, -, -, h2⟩ := oneLayer_run plateLib exampleExpansion one_pos hg 1 0 (theta := 0) (phi := 0)
    (kpo := some (0, 0)) (by simp [Crystal.orDefault]) (f := .fft platePix) (by simp [Form.isLayer])
    (by simpa using hr) true
  obtain ⟨f, hf⟩ := h2 one_pos (by simp [polNorm]) (by simp) (.inl ⟨rfl, rfl⟩)
  have hk := example_kVectors
  have hh := normal_halfSpace (ι := Fin 1) one_pos
  simp only [Complex.ofReal_one, one_pow, one_smul] at hh
  have hrf : ∃ x, scatteringReflection (0 : Fin 1 → ℂ) 0 1 (normalV0 _) ((1 : ℝ) : ℂ) = .ok (scatteringIdentity _, x) := by
    simp only [scatteringReflection, Complex.ofReal_one, hh, ok_bind, normal_reflection]
    exact ⟨_, rfl⟩
  have htr : ∃ x, scatteringTransmission (0 : Fin 1 → ℂ) 0 1 (normalV0 _) ((1 : ℝ) : ℂ) =
      .ok (scatteringIdentity _, x) := by
    simp only [scatteringTransmission, Complex.ofReal_one, hh, ok_bind, matched_transmission normalV0_det]
    exact ⟨_, rfl⟩
  obtain ⟨_, hrf⟩ := hrf
  obtain ⟨_, htr⟩ := htr
  refine ⟨_, c3, _, [q.S], f, q.S, _, _, 0, 0, _, 1, normalV0 _, _, _, h1, .cons ⟨q.scattering, rfl, ?_⟩ .nil,
    by simpa [oneLayer] using hk, normal_freeSpace, hrf, htr, ?_, .one _, hf⟩
  · dsimp only
    rw [structured_scattering]
    simp only [Complex.ofReal_zero]
    rw [← one_div, hr]; rfl
  · exact .join (l := [scatteringIdentity _, q.S]) (.join (.one _) (.one _) (redheffer_id_left _)) (.one _)
      (redheffer_id_right _)

end Khepri
