import Verif.Lemmas.TwistedReciprocity
import Verif.Props.Reciprocity
import Verif.Props.AbsorbTwisted

/-!
# C98: reciprocity of stacks of layers of two lattices
-/

namespace Khepri

open Matrix

section
variable {M : ℕ} {lib : NumLib} {tag : ℕ} {lhs rhs : Expansion M} {se : SumExpansion M} {c c3 c' c3' : Crystal (M * M)}
  {stack stack' : List String} {m m' : Bool ⊕ List Bool} {Ls Ls' : List (TwistedLayer M)} {er et wl : ℝ}
  {te tm te' tm' : ℂ} {theta phi theta' phi' : ℝ} {kpo kpo' : Option (ℂ × ℂ)} {kp : R2}
  {st st' : Stacked (Fin (M * M) ⊕ Fin (M * M))}

/-- **C98.** Lorentz reciprocity: whatever waves are sent on both sides of a stack of layers of two lattices at the
in-plane wave vectors `kp` and `-kp`, the form `E' × H - E × H'` of the two total fields is the same in front of the stack
and behind it. The layers may absorb, amplify, and have any pattern. -/
theorem C98_lorentz (he : ∀ n, EigContract (lib.eig n)) (hl : Built lhs) (hr : Built rhs) (hse : lhs.add tag rhs = .ok se)
    (h : TwistedRun lib se c stack m Ls er et wl te tm theta phi kpo kp c3)
    (h' : TwistedRun lib se c' stack' m' Ls' er et wl te' tm' theta' phi' kpo' (-kp.1, -kp.2) c3')
    (hL : List.Forall₂ TwistedLayer.Same Ls Ls') (hst : c3.stacked = some st) (hst' : c3'.stacked = some st')
    {p q p' q' : Port (Fin (M * M) ⊕ Fin (M * M))} (hs : Scatters st.Stot p q) (hs' : Scatters st'.Stot p' q') :
    lorentz (outerField (orderKx se.exp (-kp.1, -kp.2) wl) (orderKy se.exp (-kp.1, -kp.2) wl) er p')
        (outerField (orderKx se.exp kp wl) (orderKy se.exp kp wl) er p) =
      lorentz (outerField (orderKx se.exp (-kp.1, -kp.2) wl) (orderKy se.exp (-kp.1, -kp.2) wl) et q')
        (outerField (orderKx se.exp kp wl) (orderKy se.exp kp wl) et q) := by
  obtain ⟨hc, c1, c2, order, src, h1, h2, ho, h3, hsr, hkp⟩ := h
  obtain ⟨hc', c1', c2', order', src', h1', h2', ho', h3', hsr', hkp'⟩ := h'
  obtain ⟨st1, Ms, e1, hM, hS⟩ := C85_maxwell he hse hc h1 h2 ho h3 hsr hkp
  obtain ⟨st1', Ms', e1', hM', hS'⟩ := C85_maxwell he hse hc' h1' h2' ho' h3' hsr' hkp'
  rw [hst, Option.some.injEq] at e1
  rw [hst', Option.some.injEq] at e1'
  subst e1 e1'
  have hk := order_opposite (built_opposite (Built.add hl hr hse)) kp wl
  have := chain_pairing lorentzMat_unit (twisted_pairing (fun i => (hk i).1) (fun i => (hk i).2) hL hM hM')
    ((hS p q).1 hs) ((hS' p' q').1 hs')
  rw [lorentz_eq, lorentz_eq, this]

/-- **C98.** The same between a stack and the stack turned over (layers in the opposite order, outer media exchanged):
waves entering one are waves leaving the other. -/
theorem C98_flipped (he : ∀ n, EigContract (lib.eig n)) (hl : Built lhs) (hr : Built rhs) (hse : lhs.add tag rhs = .ok se)
    (h : TwistedRun lib se c stack m Ls er et wl te tm theta phi kpo kp c3)
    (h' : TwistedRun lib se c' stack' m' Ls' et er wl te' tm' theta' phi' kpo' (-kp.1, -kp.2) c3')
    (hL : List.Forall₂ TwistedLayer.Same Ls Ls'.reverse) (hst : c3.stacked = some st) (hst' : c3'.stacked = some st')
    {p q p' q' : Port (Fin (M * M) ⊕ Fin (M * M))} (hs : Scatters st.Stot p q) (hs' : Scatters st'.Stot p' q') :
    lorentz (outerField (orderKx se.exp (-kp.1, -kp.2) wl) (orderKy se.exp (-kp.1, -kp.2) wl) er q'.flip)
        (outerField (orderKx se.exp kp wl) (orderKy se.exp kp wl) er p) =
      lorentz (outerField (orderKx se.exp (-kp.1, -kp.2) wl) (orderKy se.exp (-kp.1, -kp.2) wl) et p'.flip)
        (outerField (orderKx se.exp kp wl) (orderKy se.exp kp wl) et q) := by
  obtain ⟨hc, c1, c2, order, src, h1, h2, ho, h3, hsr, hkp⟩ := h
  obtain ⟨hc', c1', c2', order', src', h1', h2', ho', h3', hsr', hkp'⟩ := h'
  obtain ⟨st1, Ms, e1, hM, hS⟩ := C85_maxwell he hse hc h1 h2 ho h3 hsr hkp
  obtain ⟨st1', Ms', e1', hM', hS'⟩ := C85_maxwell he hse hc' h1' h2' ho' h3' hsr' hkp'
  rw [hst, Option.some.injEq] at e1
  rw [hst', Option.some.injEq] at e1'
  subst e1 e1'
  have hk := order_opposite (built_opposite (Built.add hl hr hse)) kp wl
  have hM'' : TwistedEquations lib.jv1 lhs rhs (orderKx se.exp (-kp.1, -kp.2) wl) (orderKy se.exp (-kp.1, -kp.2) wl)
      (2 * Real.pi / wl) Ls'.reverse Ms'.reverse := List.rel_reverse hM'
  have := chain_pairing lorentzMat_unit (twisted_pairing (fun i => (hk i).1) (fun i => (hk i).2) hL hM hM'')
    ((hS p q).1 hs) (chain_flip ((hS' p' q').1 hs'))
  rw [lorentz_eq, lorentz_eq, outerField_flip, outerField_flip, this]

/-- What the specular order of a run at the in-plane wave vector `s kp` is made of. -/
theorem twisted_specular (he : ∀ n, EigContract (lib.eig n)) (hl : Built lhs) (hr : Built rhs)
    (hse : lhs.add tag rhs = .ok se) {i0 : Fin (M * M)} (hi0 : (i0 : ℕ) = (M * M - 1) / 2) (hwl : 0 < wl) {s : ℝ}
    (hs : s = 1 ∨ s = -1)
    (h : TwistedRun lib se c stack m Ls er et wl te tm theta phi kpo (s * kp.1, s * kp.2) c3)
    {f : Crystal.Fluxes (M * M)} (hf : c3.poyntingFluxEnd = .ok f) {X Y : ℝ} (hX : X = kp.1 / (2 * Real.pi / wl))
    (hY : Y = kp.2 / (2 * Real.pi / wl)) :
    ∃ (st : Stacked (Fin (M * M) ⊕ Fin (M * M))) (inc : Vec2 (M * M)), c3.stacked = some st ∧
      incident (M * M) te tm ⟨s * kp.1, s * kp.2, star (csqrt (((2 * Real.pi / wl : ℝ) : ℂ) ^ 2 * er -
        (s * kp.1 : ℂ) ^ 2 - (s * kp.2 : ℂ) ^ 2))⟩ = .ok inc ∧ 0 < er - X ^ 2 - Y ^ 2 ∧
      f.Rg i0 = waveSize X Y (Real.sqrt (er - X ^ 2 - Y ^ 2)) (orderOf (st.Stot.s11 *ᵥ inc) i0) ∧
      (0 < et - X ^ 2 - Y ^ 2 → f.Tg i0 = Real.sqrt (et - X ^ 2 - Y ^ 2) / Real.sqrt (er - X ^ 2 - Y ^ 2) *
        waveSize X Y (Real.sqrt (et - X ^ 2 - Y ^ 2)) (orderOf (st.Stot.s21 *ᵥ inc) i0)) := by
  obtain ⟨-, hkx, hky⟩ := middle_order (Built.add hl hr hse) hi0 (s * kp.1, s * kp.2) wl
  have e1 : s * kp.1 / (2 * Real.pi / wl) = s * X := by rw [hX]; ring
  have e2 : s * kp.2 / (2 * Real.pi / wl) = s * Y := by rw [hY]; ring
  have hss : s ^ 2 = 1 := by rcases hs with rfl | rfl <;> norm_num
  have e3 : ∀ x : ℝ, (s * x) ^ 2 = x ^ 2 := fun x => by rw [mul_pow, hss, one_mul]
  have e4 : ∀ z v, waveSize ((s * X : ℝ) : ℂ) ((s * Y : ℝ) : ℂ) z v = waveSize X Y z v := by
    intro z v
    rcases hs with rfl | rfl
    · simp
    · simp [waveSize_neg]
  obtain ⟨st, Ms, inc, hst, -, hinc, hpos, ho⟩ := h.outcome he hse hwl hf
  have hR := ho.Rg
  have hT := ho.Tg
  simp only [e1, e2, e3] at hpos hkx hky hR hT
  refine ⟨st, inc, hst, by push_cast at hinc ⊢; exact hinc, hpos, ?_, ?_⟩
  · rw [hR, waveNorm_order]
    simp only [hkx, hky, e3, e4]
    rw [outerKz_pos hpos, Complex.ofReal_re, div_self (Real.sqrt_pos.2 hpos).ne', one_mul]
  · intro ht
    rw [hT, waveNorm_order]
    simp only [hkx, hky, e3, e4]
    rw [outerKz_pos ht, Complex.ofReal_re]

/-- **C98.** The specular reflectance for unpolarised light is the same at opposite directions of incidence, for any
patterns on the two lattices and with absorbing layers. -/
theorem C98_reflectance (he : ∀ n, EigContract (lib.eig n)) (hl : Built lhs) (hr : Built rhs)
    (hse : lhs.add tag rhs = .ok se) (hwl : 0 < wl)
    (hcut : (kp.1 = 0 ∧ kp.2 = 0) ∨ (1 / 10 ^ 8) ^ 2 ≤ kp.1 ^ 2 + kp.2 ^ 2)
    (hL : List.Forall₂ TwistedLayer.Same Ls Ls')
    {a1 a2 b1 b2 : Crystal (M * M)} {θ φ : Fin 4 → ℝ} {k : Fin 4 → Option (ℂ × ℂ)}
    (ha1 : TwistedRun lib se c stack m Ls er et wl 1 0 (θ 0) (φ 0) (k 0) kp a1)
    (ha2 : TwistedRun lib se c stack m Ls er et wl 0 1 (θ 1) (φ 1) (k 1) kp a2)
    (hb1 : TwistedRun lib se c' stack' m' Ls' er et wl 1 0 (θ 2) (φ 2) (k 2) (-kp.1, -kp.2) b1)
    (hb2 : TwistedRun lib se c' stack' m' Ls' er et wl 0 1 (θ 3) (φ 3) (k 3) (-kp.1, -kp.2) b2)
    {f1 f2 g1 g2 : Crystal.Fluxes (M * M)} (hf1 : a1.poyntingFluxEnd = .ok f1) (hf2 : a2.poyntingFluxEnd = .ok f2)
    (hg1 : b1.poyntingFluxEnd = .ok g1) (hg2 : b2.poyntingFluxEnd = .ok g2) {i0 : Fin (M * M)}
    (hi0 : (i0 : ℕ) = (M * M - 1) / 2) :
    f1.Rg i0 + f2.Rg i0 = g1.Rg i0 + g2.Rg i0 := by
  have hk0 : 0 < 2 * Real.pi / wl := by have := Real.pi_pos; positivity
  obtain ⟨X, hX⟩ : ∃ X, X = kp.1 / (2 * Real.pi / wl) := ⟨_, rfl⟩
  obtain ⟨Y, hY⟩ : ∃ Y, Y = kp.2 / (2 * Real.pi / wl) := ⟨_, rfl⟩
  obtain ⟨st1, u1, hst1, hu1, hpos, hR1, -⟩ := twisted_specular he hl hr hse hi0 hwl (Or.inl rfl) (by simpa using ha1) hf1 hX hY
  obtain ⟨st2, u2, hst2, hu2, -, hR2, -⟩ := twisted_specular he hl hr hse hi0 hwl (Or.inl rfl) (by simpa using ha2) hf2 hX hY
  obtain ⟨st3, v1, hst3, hv1, -, hR3, -⟩ := twisted_specular he hl hr hse hi0 hwl (Or.inr rfl) (by simpa using hb1) hg1 hX hY
  obtain ⟨st4, v2, hst4, hv2, -, hR4, -⟩ := twisted_specular he hl hr hse hi0 hwl (Or.inr rfl) (by simpa using hb2) hg2 hX hY
  obtain ⟨s1, s2, hA⟩ := run_basis hk0 hX hY hpos hcut hi0 (Or.inl rfl) hu1 hu2
  obtain ⟨s3, s4, hB⟩ := run_basis hk0 hX hY hpos hcut hi0 (Or.inr rfl) hv1 hv2
  obtain ⟨hrv, hkx, hky⟩ := middle_order (Built.add hl hr hse) hi0 kp wl
  rw [← hX] at hkx
  rw [← hY] at hky
  have hk := order_opposite (built_opposite (Built.add hl hr hse)) kp wl
  have pair : ∀ {S S' : SMat (Fin (M * M) ⊕ Fin (M * M))} {u u' : Vec2 (M * M)}, _ → _ → _ → _ :=
    fun {S S' u u'} h hu hu' => reflection_of_lorentz (S := S) (S' := S') (u := u) (u' := u') (er := er) (et := et)
      (fun i => (hk i).1) (fun i => (hk i).2) h hrv (by rw [hkx, hky]; exact hpos) hu hu'
  rw [hkx, hky] at pair
  have r11 := pair (fun p q p' q' => C98_lorentz he hl hr hse ha1 hb1 hL hst1 hst3) s1 s3
  have r12 := pair (fun p q p' q' => C98_lorentz he hl hr hse ha1 hb2 hL hst1 hst4) s1 s4
  have r21 := pair (fun p q p' q' => C98_lorentz he hl hr hse ha2 hb1 hL hst2 hst3) s2 s3
  have r22 := pair (fun p q p' q' => C98_lorentz he hl hr hse ha2 hb2 hL hst2 hst4) s2 s4
  rw [hR1, hR2, hR3, hR4, hB, hB, hA, hA, r11, r12, r21, r22]
  ring

/-- **C98.** The specular transmittance for unpolarised light is the same through a stack and, at the opposite in-plane
wave vector, through the stack turned over, for any patterns on the two lattices and with absorbing layers. -/
theorem C98_transmittance (he : ∀ n, EigContract (lib.eig n)) (hl : Built lhs) (hr : Built rhs)
    (hse : lhs.add tag rhs = .ok se) (hwl : 0 < wl)
    (hcut : (kp.1 = 0 ∧ kp.2 = 0) ∨ (1 / 10 ^ 8) ^ 2 ≤ kp.1 ^ 2 + kp.2 ^ 2)
    (hL : List.Forall₂ TwistedLayer.Same Ls Ls'.reverse)
    {a1 a2 b1 b2 : Crystal (M * M)} {θ φ : Fin 4 → ℝ} {k : Fin 4 → Option (ℂ × ℂ)}
    (ha1 : TwistedRun lib se c stack m Ls er et wl 1 0 (θ 0) (φ 0) (k 0) kp a1)
    (ha2 : TwistedRun lib se c stack m Ls er et wl 0 1 (θ 1) (φ 1) (k 1) kp a2)
    (hb1 : TwistedRun lib se c' stack' m' Ls' et er wl 1 0 (θ 2) (φ 2) (k 2) (-kp.1, -kp.2) b1)
    (hb2 : TwistedRun lib se c' stack' m' Ls' et er wl 0 1 (θ 3) (φ 3) (k 3) (-kp.1, -kp.2) b2)
    {f1 f2 g1 g2 : Crystal.Fluxes (M * M)} (hf1 : a1.poyntingFluxEnd = .ok f1) (hf2 : a2.poyntingFluxEnd = .ok f2)
    (hg1 : b1.poyntingFluxEnd = .ok g1) (hg2 : b2.poyntingFluxEnd = .ok g2) {i0 : Fin (M * M)}
    (hi0 : (i0 : ℕ) = (M * M - 1) / 2) :
    f1.Tg i0 + f2.Tg i0 = g1.Tg i0 + g2.Tg i0 := by
  have hk0 : 0 < 2 * Real.pi / wl := by have := Real.pi_pos; positivity
  obtain ⟨X, hX⟩ : ∃ X, X = kp.1 / (2 * Real.pi / wl) := ⟨_, rfl⟩
  obtain ⟨Y, hY⟩ : ∃ Y, Y = kp.2 / (2 * Real.pi / wl) := ⟨_, rfl⟩
  obtain ⟨st1, u1, hst1, hu1, hr1, -, hR1⟩ := twisted_specular he hl hr hse hi0 hwl (Or.inl rfl) (by simpa using ha1) hf1 hX hY
  obtain ⟨st2, u2, hst2, hu2, -, -, hR2⟩ := twisted_specular he hl hr hse hi0 hwl (Or.inl rfl) (by simpa using ha2) hf2 hX hY
  obtain ⟨st3, v1, hst3, hv1, ht, -, hR3⟩ := twisted_specular he hl hr hse hi0 hwl (Or.inr rfl) (by simpa using hb1) hg1 hX hY
  obtain ⟨st4, v2, hst4, hv2, -, -, hR4⟩ := twisted_specular he hl hr hse hi0 hwl (Or.inr rfl) (by simpa using hb2) hg2 hX hY
  obtain ⟨s1, s2, hA⟩ := run_basis hk0 hX hY hr1 hcut hi0 (Or.inl rfl) hu1 hu2
  obtain ⟨s3, s4, hB⟩ := run_basis hk0 hX hY ht hcut hi0 (Or.inr rfl) hv1 hv2
  obtain ⟨hrv, hkx, hky⟩ := middle_order (Built.add hl hr hse) hi0 kp wl
  rw [← hX] at hkx
  rw [← hY] at hky
  have hk := order_opposite (built_opposite (Built.add hl hr hse)) kp wl
  have pair : ∀ {S S' : SMat (Fin (M * M) ⊕ Fin (M * M))} {u u' : Vec2 (M * M)}, _ → _ → _ → _ :=
    fun {S S' u u'} h hu hu' => transmission_of_lorentz (S := S) (S' := S') (u := u) (u' := u') (er := er) (et := et)
      (fun i => (hk i).1) (fun i => (hk i).2) h hrv (by rw [hkx, hky]; exact hr1) (by rw [hkx, hky]; exact ht) hu hu'
  rw [hkx, hky] at pair
  have r11 := pair (fun p q p' q' => C98_flipped he hl hr hse ha1 hb1 hL hst1 hst3) s1 s3
  have r12 := pair (fun p q p' q' => C98_flipped he hl hr hse ha1 hb2 hL hst1 hst4) s1 s4
  have r21 := pair (fun p q p' q' => C98_flipped he hl hr hse ha2 hb1 hL hst2 hst3) s2 s3
  have r22 := pair (fun p q p' q' => C98_flipped he hl hr hse ha2 hb2 hL hst2 hst4) s2 s4
  rw [hR1 ht, hR2 ht, hR3 hr1, hR4 hr1, hB, hB, hA, hA]
  have hzr := Real.sqrt_pos.2 hr1
  have hzt := Real.sqrt_pos.2 ht
  have key : ∀ {a b : ℂ}, (Real.sqrt (et - X ^ 2 - Y ^ 2) : ℂ) * a = (Real.sqrt (er - X ^ 2 - Y ^ 2) : ℂ) * b →
      Real.sqrt (et - X ^ 2 - Y ^ 2) / Real.sqrt (er - X ^ 2 - Y ^ 2) * ‖a‖ ^ 2 =
        Real.sqrt (er - X ^ 2 - Y ^ 2) / Real.sqrt (et - X ^ 2 - Y ^ 2) * ‖b‖ ^ 2 := by
    intro a b hab
    have := congrArg (fun w => ‖w‖ ^ 2) hab
    simp only [norm_mul, mul_pow, Complex.norm_real, Real.norm_eq_abs, sq_abs] at this
    field_simp
    exact this
  linear_combination key r11 + key r12 + key r21 + key r22

end

section Examples

/-- Stacks of absorbing layers of two lattices are solved, and their powers available. -/
theorem absorbing_run {M : ℕ} {lib : NumLib} {tag : ℕ} {lhs rhs : Expansion M} {se : SumExpansion M} {c : Crystal (M * M)}
    {stack order : List String} {Ls : List (TwistedLayer M)} {er et wl : ℝ} {te tm : ℂ} {kp : R2}
    (he : ∀ n, EigContract (lib.eig n)) (hse : lhs.add tag rhs = .ok se)
    (hc : TwistedDevice se c stack (.inl true) Ls er et) (ho : SetOrder ("Sref" :: (stack ++ ["Strans"])) order)
    (hwl : 0 < wl) (her : 0 < er) (het : 0 < et)
    (hg : ∀ i, 1 - orderKx se.exp kp wl i ^ 2 - orderKy se.exp kp wl i ^ 2 ≠ 0)
    (hgr : ∀ i, er - orderKx se.exp kp wl i ^ 2 - orderKy se.exp kp wl i ^ 2 ≠ 0)
    (hgt : ∀ i, et - orderKx se.exp kp wl i ^ 2 - orderKy se.exp kp wl i ^ 2 ≠ 0)
    (hL : ∀ l ∈ Ls, 0 < l.depth ∧ l.strictlyAbsorbing lib.jv1 lhs rhs ∧ l.diagonalised lib lhs rhs kp wl)
    (hp : 0 < er - (kp.1 / (2 * Real.pi / wl)) ^ 2 - (kp.2 / (2 * Real.pi / wl)) ^ 2) (hpol : (te, tm) ≠ (0, 0)) :
    ∃ c3 f, TwistedRun lib se c stack (.inl true) Ls er et wl te tm 0 0 (some (↑kp.1, ↑kp.2)) kp c3 ∧
      c3.poyntingFluxEnd = .ok f := by
  obtain ⟨As, hAs⟩ : ∃ As : List (AnyLayer (M * M)), List.Forall₂ (fun x a => c.layers x = some a) stack As := by
    have := hc.layers
    clear hc ho hL
    induction this with
    | nil => exact ⟨[], .nil⟩
    | @cons x l _ _ h _ ih =>
      obtain ⟨As, hAs⟩ := ih
      cases l with
      | uniform eps d =>
        obtain ⟨a, ha, -⟩ := h
        exact ⟨_ :: As, .cons ha hAs⟩
      | first l =>
        obtain ⟨-, -, a, -, ha⟩ := h
        exact ⟨_ :: As, .cons ha hAs⟩
      | second l =>
        obtain ⟨-, -, a, -, ha⟩ := h
        exact ⟨_ :: As, .cons ha hAs⟩
  obtain ⟨c1, h1, -⟩ := Crystal.setDevice_any (m := .inl true) hc.void hc.noRef hc.noTrans hAs (by simp [Crystal.maskList])
  have h2 : ∃ c2 src, c1.setSource wl te tm 0 0 (some ((kp.1 : ℂ), (kp.2 : ℂ))) = .ok c2 ∧ c2.source = some src ∧
      src.kp = ((kp.1 : ℂ), (kp.2 : ℂ)) :=
    ⟨_, _, Crystal.setSource_eq_ok.2 ⟨hwl.ne', _, rfl, rfl⟩, rfl, rfl⟩
  obtain ⟨c2, src, h2, hs, hk⟩ := h2
  obtain ⟨c3, h3⟩ := C95_device he hse hc h1 h2 ho hwl her het hs hk hg hgr hgt hL
  obtain ⟨f, hf⟩ := C95_powers hse hc h1 h2 ho h3 hwl hs hk hp hpol
  exact ⟨c3, f, ⟨hc, c1, c2, order, src, h1, h2, ho, h3, hs, hk⟩, hf⟩

/-- Non-vacuity of C98: absorbing plates registered on lattices of period 1 and 1/2, nine orders each, at an angle of
incidence and the opposite one, in both polarisations; the stack and the stack turned over. -/
example (lib : NumLib) (he : ∀ n, EigContract (lib.eig n)) :
    ∃ (lhs rhs : Expansion 9) (se : SumExpansion 9) (c : Crystal (9 * 9)) (Ls : List (TwistedLayer 9))
      (k k' : Option (ℂ × ℂ)), Built lhs ∧ Built rhs ∧ lhs.add 2 rhs = .ok se ∧ Ls.length = 2 ∧
      (1 / 10 ^ 8 : ℝ) ^ 2 ≤ (Real.pi / 4) ^ 2 + 0 ^ 2 ∧
      List.Forall₂ TwistedLayer.Same Ls Ls ∧ List.Forall₂ TwistedLayer.Same Ls Ls.reverse.reverse ∧
      ∀ te tm : ℂ, (te, tm) ≠ (0, 0) → ∃ a b d fa fb fd,
        TwistedRun lib se c ["a", "b"] (.inl true) Ls 1 1 4 te tm 0 0 k (Real.pi / 4, 0) a ∧
        TwistedRun lib se c ["a", "b"] (.inl true) Ls 1 1 4 te tm 0 0 k' (-(Real.pi / 4), -0) b ∧
        TwistedRun lib se c ["b", "a"] (.inl true) Ls.reverse 1 1 4 te tm 0 0 k' (-(Real.pi / 4), -0) d ∧
        a.poyntingFluxEnd = .ok fa ∧ b.poyntingFluxEnd = .ok fb ∧ d.poyntingFluxEnd = .ok fd := by
  have hpi := Real.pi_pos
  have hp3 := Real.two_le_pi
  obtain ⟨lhs, rhs, se, hbl, hbr, hne, hse, hg⟩ := two_lattices
  obtain ⟨-, -, hl, hr, -⟩ := add_eq_ok hse
  obtain ⟨b, hb, rb, ob, qb⟩ := (C85_registered { expansion := se.exp, layers := fun _ => none } se "a"
    (Layer.uniform lhs (4 - Complex.I) 1) trivial).1 hl.symm
  obtain ⟨c, hcc, rc, oc, qc⟩ := (C85_registered b se "b" (Layer.uniform rhs (2 - 3 * Complex.I) 2) trivial).2.1 hr.symm
  have e1 : b.expansion = se.exp ∧ b.void = false ∧ b.epsi = 1 ∧ b.epse = 1 :=
    ⟨(congrArg Crystal.expansion qb :), (congrArg Crystal.void qb :), (congrArg Crystal.epsi qb :), (congrArg Crystal.epse qb :)⟩
  have e2 : c.expansion = b.expansion ∧ c.void = b.void ∧ c.epsi = b.epsi ∧ c.epse = b.epse :=
    ⟨(congrArg Crystal.expansion qc :), (congrArg Crystal.void qc :), (congrArg Crystal.epsi qc :), (congrArg Crystal.epse qc :)⟩
  have ra : TwistedLayer.Registered se c "a" (.first (Layer.uniform lhs (4 - Complex.I) 1)) := by
    obtain ⟨p1, p2, a, p3, p4⟩ := rb
    exact ⟨p1, p2, a, p3, by rw [oc _ (by decide)]; exact p4⟩
  have hc : ∀ {stack Ls}, List.Forall₂ (TwistedLayer.Registered se c) stack Ls →
      TwistedDevice se c stack (.inl true) Ls ((1 : ℝ) : ℂ) ((1 : ℝ) : ℂ) := fun h =>
    { space := e2.1.trans e1.1
      two := by rw [hl, hr]; exact hne
      void := e2.2.1.trans e1.2.1
      epsi := by rw [e2.2.2.1, e1.2.2.1]; simp
      epse := by rw [e2.2.2.2, e1.2.2.2]; simp
      noRef := by rw [oc _ (by decide), ob _ (by decide)]
      noTrans := by rw [oc _ (by decide), ob _ (by decide)]
      layers := h
      mask := by simp }
  have hg1 : ∀ i, 1 - orderKx se.exp (Real.pi / 4, 0) 4 i ^ 2 - orderKy se.exp (Real.pi / 4, 0) 4 i ^ 2 ≠ 0 := by
    intro i h0
    obtain ⟨x, y, hxy⟩ := hg i
    have e1 : orderKx se.exp (Real.pi / 4, 0) 4 i = 1 / 2 + 4 * x := by
      simp only [orderKx, hxy]; field_simp
    have e2 : orderKy se.exp (Real.pi / 4, 0) 4 i = 4 * y := by
      simp only [orderKy, hxy]; field_simp; ring
    rw [e1, e2] at h0
    have h1 : (4 - (1 + 8 * x) ^ 2 - 64 * y ^ 2 : ℝ) = 0 := by linear_combination 4 * h0
    have h2 : (4 - (1 + 8 * x) ^ 2 - 64 * y ^ 2 : ℤ) = 0 := by exact_mod_cast h1
    have h3 : 64 * x ^ 2 + 16 * x + 64 * y ^ 2 = 3 := by linear_combination -h2
    omega
  have hg2 : ∀ i, 1 - orderKx se.exp (-(Real.pi / 4), -0) 4 i ^ 2 - orderKy se.exp (-(Real.pi / 4), -0) 4 i ^ 2 ≠ 0 := by
    intro i
    have := order_opposite (built_opposite (Built.add hbl hbr hse)) (Real.pi / 4, 0) 4 i.rev
    rw [Fin.rev_rev] at this
    rw [this.1, this.2, neg_sq, neg_sq]
    exact hg1 _
  have hst : ∀ l ∈ [TwistedLayer.first (Layer.uniform lhs (4 - Complex.I) 1), .second (Layer.uniform rhs (2 - 3 * Complex.I) 2)],
      ∀ kp, 0 < l.depth ∧ l.strictlyAbsorbing lib.jv1 lhs rhs ∧ l.diagonalised lib lhs rhs kp 4 := by
    intro l hl kp
    simp only [List.mem_cons, List.not_mem_nil, or_false] at hl
    rcases hl with rfl | rfl
    · exact ⟨by simp [TwistedLayer.depth, Layer.uniform],
        by simp [TwistedLayer.strictlyAbsorbing, Layer.uniform, Form.strictlyAbsorbing], fun _ => trivial⟩
    · exact ⟨by simp [TwistedLayer.depth, Layer.uniform],
        by simp [TwistedLayer.strictlyAbsorbing, Layer.uniform, Form.strictlyAbsorbing], fun _ => trivial⟩
  have k0 : Real.pi / 4 / (2 * Real.pi / 4) = 1 / 2 := by field_simp
  have k0' : -(Real.pi / 4) / (2 * Real.pi / 4) = -(1 / 2) := by rw [neg_div, k0]
  have o1 : SetOrder ("Sref" :: (["a", "b"] ++ ["Strans"])) ["Sref", "a", "b", "Strans"] := ⟨by decide, fun x => by simp⟩
  have o2 : SetOrder ("Sref" :: (["b", "a"] ++ ["Strans"])) ["Sref", "b", "a", "Strans"] := ⟨by decide, fun x => by simp⟩
  have same : ∀ l : TwistedLayer 9, TwistedLayer.Same l l := fun l => by
    cases l <;> simp [TwistedLayer.Same, TwistedLayer.Corresponds]
  have sames : ∀ l : List (TwistedLayer 9), List.Forall₂ TwistedLayer.Same l l := fun l => by
    rw [List.forall₂_same]; exact fun x _ => same x
  refine ⟨lhs, rhs, se, c, [.first (Layer.uniform lhs (4 - Complex.I) 1), .second (Layer.uniform rhs (2 - 3 * Complex.I) 2)],
    some (((Real.pi / 4 : ℝ) : ℂ), ((0 : ℝ) : ℂ)), some (((-(Real.pi / 4) : ℝ) : ℂ), ((-0 : ℝ) : ℂ)), hbl, hbr, hse, rfl,
    by nlinarith, sames _, by rw [List.reverse_reverse]; exact sames _, fun te tm hpol => ?_⟩
  obtain ⟨a, fa, h1, hf1⟩ := absorbing_run he hse (hc (.cons ra (.cons rc .nil))) o1 four_pos one_pos one_pos
    (kp := (Real.pi / 4, 0)) hg1 hg1 hg1 (fun l hl => hst l hl _) (by simp only [k0]; norm_num) hpol
  obtain ⟨b, fb, h2, hf2⟩ := absorbing_run he hse (hc (.cons ra (.cons rc .nil))) o1 four_pos one_pos one_pos
    (kp := (-(Real.pi / 4), -0)) hg2 hg2 hg2 (fun l hl => hst l hl _) (by simp only [k0']; norm_num) hpol
  obtain ⟨d, fd, h3, hf3⟩ := absorbing_run he hse (hc (.cons rc (.cons ra .nil))) o2 four_pos one_pos one_pos
    (kp := (-(Real.pi / 4), -0)) hg2 hg2 hg2 (fun l hl => hst l (by simpa [or_comm] using hl) _)
    (by simp only [k0']; norm_num) hpol
  exact ⟨a, b, d, fa, fb, fd, h1, h2, h3, hf1, hf2, hf3⟩

end Examples

end Khepri
