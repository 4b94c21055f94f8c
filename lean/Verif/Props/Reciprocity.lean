import Verif.Lemmas.Reciprocity
import Verif.Lemmas.ExampleRun
import Verif.Props.Symmetry

/-!
# Property C75: reciprocity
-/

namespace Khepri

open Matrix

section
variable {N : ℕ} {lib : NumLib} {c c3 c' c3' : Crystal N} {stack stack' : List String}
  {m m' : Bool ⊕ List Bool} {Ls Ls' : List (Layer N)} {er et wl : ℝ} {te tm te' tm' : ℂ}
  {theta phi theta' phi' : ℝ} {kpo kpo' : Option (ℂ × ℂ)} {kp : R2}
  {st st' : Stacked (Fin N ⊕ Fin N)}

/-- **C75**, the two expansions: in every expansion a user can build — rotated, twisted sums included — numbers `i` and
`N - 1 - i` are opposite orders. -/
theorem C75_orders {e : Expansion N} (h : Built e) : OppositeOrders e := built_opposite h

/-- **C75.** Lorentz reciprocity: whatever waves are sent on both sides of a device at the in-plane wave vectors `kp` and
`-kp`, the form `E' × H - E × H'` of the two total fields is the same in front of the device and behind it. The layers may
absorb, amplify, and have any pattern. -/
theorem C75_lorentz (he : EigContract (lib.eig N)) (hb : Built c.expansion) (hx : c'.expansion = c.expansion)
    (h : DeviceRun lib c stack m Ls er et wl te tm theta phi kpo kp c3)
    (h' : DeviceRun lib c' stack' m' Ls' er et wl te' tm' theta' phi' kpo' (-kp.1, -kp.2) c3')
    (hL : List.Forall₂ (fun l l' => l'.form = l.form ∧ l'.depth = l.depth) Ls Ls')
    (hst : c3.stacked = some st) (hst' : c3'.stacked = some st') {p q p' q' : Port (Fin N ⊕ Fin N)}
    (hs : Scatters st.Stot p q) (hs' : Scatters st'.Stot p' q') :
    lorentz (outerField (orderKx c.expansion (-kp.1, -kp.2) wl) (orderKy c.expansion (-kp.1, -kp.2) wl) er p')
        (outerField (orderKx c.expansion kp wl) (orderKy c.expansion kp wl) er p) =
      lorentz (outerField (orderKx c.expansion (-kp.1, -kp.2) wl) (orderKy c.expansion (-kp.1, -kp.2) wl) et q')
        (outerField (orderKx c.expansion kp wl) (orderKy c.expansion kp wl) et q) :=
  runs_lorentz he (built_opposite hb) hx h h' hL hst hst' hs hs'

/-- **C75.** The same between a device and the device turned over (layers in the opposite order, outer media exchanged):
waves entering one are waves leaving the other. -/
theorem C75_flipped (he : EigContract (lib.eig N)) (hb : Built c.expansion) (hx : c'.expansion = c.expansion)
    (h : DeviceRun lib c stack m Ls er et wl te tm theta phi kpo kp c3)
    (h' : DeviceRun lib c' stack' m' Ls' et er wl te' tm' theta' phi' kpo' (-kp.1, -kp.2) c3')
    (hL : List.Forall₂ (fun l l' => l'.form = l.form ∧ l'.depth = l.depth) Ls.reverse Ls')
    (hst : c3.stacked = some st) (hst' : c3'.stacked = some st') {p q p' q' : Port (Fin N ⊕ Fin N)}
    (hs : Scatters st.Stot p q) (hs' : Scatters st'.Stot p' q') :
    lorentz (outerField (orderKx c.expansion (-kp.1, -kp.2) wl) (orderKy c.expansion (-kp.1, -kp.2) wl) er q'.flip)
        (outerField (orderKx c.expansion kp wl) (orderKy c.expansion kp wl) er p) =
      lorentz (outerField (orderKx c.expansion (-kp.1, -kp.2) wl) (orderKy c.expansion (-kp.1, -kp.2) wl) et p'.flip)
        (outerField (orderKx c.expansion kp wl) (orderKy c.expansion kp wl) et q) :=
  runs_flipped he (built_opposite hb) hx h h' hL hst hst' hs hs'

/-- The middle order is its own opposite and is the specular one. -/
theorem middle_order {e : Expansion N} (hb : Built e) {i0 : Fin N} (hi0 : (i0 : ℕ) = (N - 1) / 2) (kp : R2) (wl : ℝ) :
    i0.rev = i0 ∧ orderKx e kp wl i0 = kp.1 / (2 * Real.pi / wl) ∧ orderKy e kp wl i0 = kp.2 / (2 * Real.pi / wl) := by
  obtain ⟨hodd, hc⟩ := C25_specular_middle hb
  rw [Nat.odd_iff] at hodd
  have hg := hc i0 (by omega)
  refine ⟨Fin.ext (by rw [Fin.val_rev]; omega), ?_, ?_⟩ <;> simp [orderKx, orderKy, hg]

/-- What the specular order of a run at the in-plane wave vector `s kp` is made of. -/
theorem specular_run (hb : Built c.expansion) {i0 : Fin N} (hi0 : (i0 : ℕ) = (N - 1) / 2) (hwl : 0 < wl) {s : ℝ}
    (hs : s = 1 ∨ s = -1)
    (h : DeviceRun lib c stack m Ls er et wl te tm theta phi kpo (s * kp.1, s * kp.2) c3)
    {f : Crystal.Fluxes N} (hf : c3.poyntingFluxEnd = .ok f) {X Y : ℝ} (hX : X = kp.1 / (2 * Real.pi / wl))
    (hY : Y = kp.2 / (2 * Real.pi / wl)) :
    ∃ (st : Stacked (Fin N ⊕ Fin N)) (inc : Vec2 N), c3.stacked = some st ∧
      incident N te tm ⟨s * kp.1, s * kp.2, star (csqrt (((2 * Real.pi / wl : ℝ) : ℂ) ^ 2 * er -
        (s * kp.1 : ℂ) ^ 2 - (s * kp.2 : ℂ) ^ 2))⟩ = .ok inc ∧ 0 < er - X ^ 2 - Y ^ 2 ∧
      f.Rg i0 = waveSize X Y (Real.sqrt (er - X ^ 2 - Y ^ 2)) (orderOf (st.Stot.s11 *ᵥ inc) i0) ∧
      (0 < et - X ^ 2 - Y ^ 2 → f.Tg i0 = Real.sqrt (et - X ^ 2 - Y ^ 2) / Real.sqrt (er - X ^ 2 - Y ^ 2) *
        waveSize X Y (Real.sqrt (et - X ^ 2 - Y ^ 2)) (orderOf (st.Stot.s21 *ᵥ inc) i0)) := by
  obtain ⟨-, hkx, hky⟩ := middle_order hb hi0 (s * kp.1, s * kp.2) wl
  have e1 : s * kp.1 / (2 * Real.pi / wl) = s * X := by rw [hX]; ring
  have e2 : s * kp.2 / (2 * Real.pi / wl) = s * Y := by rw [hY]; ring
  have hss : s ^ 2 = 1 := by rcases hs with rfl | rfl <;> norm_num
  have e3 : ∀ x : ℝ, (s * x) ^ 2 = x ^ 2 := fun x => by rw [mul_pow, hss, one_mul]
  have e4 : ∀ z v, waveSize ((s * X : ℝ) : ℂ) ((s * Y : ℝ) : ℂ) z v = waveSize X Y z v := by
    intro z v
    rcases hs with rfl | rfl
    · simp
    · simp [waveSize_neg]
  obtain ⟨st, inc, hst, hinc, hpos, hR, hT, -⟩ := h.fluxes hwl hf
  simp only [e1, e2, e3] at hpos hkx hky hR hT
  refine ⟨st, inc, hst, by push_cast at hinc ⊢; exact hinc, hpos, ?_, ?_⟩
  · rw [hR, waveNorm_order]
    simp only [hkx, hky, e3, e4]
    rw [outerKz_pos hpos, Complex.ofReal_re, div_self (Real.sqrt_pos.2 hpos).ne', one_mul]
  · intro ht
    rw [hT, waveNorm_order]
    simp only [hkx, hky, e3, e4]
    rw [outerKz_pos ht, Complex.ofReal_re]

theorem run_basis {k0 ε X Y s : ℝ} (hk0 : 0 < k0) (hX : X = kp.1 / k0) (hY : Y = kp.2 / k0)
    (hpos : 0 < ε - X ^ 2 - Y ^ 2)
    (hcut : (kp.1 = 0 ∧ kp.2 = 0) ∨ (1 / 10 ^ 8) ^ 2 ≤ kp.1 ^ 2 + kp.2 ^ 2) {i0 : Fin N} (hi : (i0 : ℕ) = (N - 1) / 2)
    (hs : s = 1 ∨ s = -1) {inc1 inc2 : Vec2 N}
    (h1 : incident N 1 0 ⟨s * kp.1, s * kp.2, star (csqrt (((k0 : ℝ) : ℂ) ^ 2 * ε - (s * kp.1 : ℂ) ^ 2 -
      (s * kp.2 : ℂ) ^ 2))⟩ = .ok inc1)
    (h2 : incident N 0 1 ⟨s * kp.1, s * kp.2, star (csqrt (((k0 : ℝ) : ℂ) ^ 2 * ε - (s * kp.1 : ℂ) ^ 2 -
      (s * kp.2 : ℂ) ^ 2))⟩ = .ok inc2) :
    (∀ i, i ≠ i0 → inc1 (.inl i) = 0 ∧ inc1 (.inr i) = 0) ∧ (∀ i, i ≠ i0 → inc2 (.inl i) = 0 ∧ inc2 (.inr i) = 0) ∧
    ∀ v : ℂ × ℂ, waveSize X Y (Real.sqrt (ε - X ^ 2 - Y ^ 2)) v =
      ‖waveDot X Y (Real.sqrt (ε - X ^ 2 - Y ^ 2)) (orderOf inc1 i0) v‖ ^ 2 +
        ‖waveDot X Y (Real.sqrt (ε - X ^ 2 - Y ^ 2)) (orderOf inc2 i0) v‖ ^ 2 := by
  have e1 : s * kp.1 / k0 = s * X := by rw [hX]; ring
  have e2 : s * kp.2 / k0 = s * Y := by rw [hY]; ring
  have hss : s ^ 2 = 1 := by rcases hs with rfl | rfl <;> norm_num
  have e3 : ∀ x : ℝ, (s * x) ^ 2 = x ^ 2 := fun x => by rw [mul_pow, hss, one_mul]
  have := specular_basis (a := s * kp.1) (b := s * kp.2) (er := ε) hk0 (by rw [e1, e2, e3, e3]; exact hpos)
    (by
      rcases hcut with ⟨h, h'⟩ | h
      · left; simp [h, h']
      · right; rw [e3, e3]; exact h) hi (inc1 := inc1) (inc2 := inc2) (by push_cast; exact h1) (by push_cast; exact h2)
  obtain ⟨a1, a2, a3⟩ := this
  refine ⟨a1, a2, fun v => ?_⟩
  have := a3 v
  rw [e1, e2, e3, e3] at this
  rcases hs with rfl | rfl
  · simpa using this
  · simpa [waveSize_neg, waveDot_neg] using this

/-- Specular reflections at opposite wave vectors. -/
theorem reflection_pair (he : EigContract (lib.eig N)) (hb : Built c.expansion) {i0 : Fin N}
    (hi0 : (i0 : ℕ) = (N - 1) / 2)
    (h : DeviceRun lib c stack m Ls er et wl te tm theta phi kpo kp c3)
    (h' : DeviceRun lib c stack m Ls er et wl te' tm' theta' phi' kpo' (-kp.1, -kp.2) c3')
    (hst : c3.stacked = some st) (hst' : c3'.stacked = some st') {X Y : ℝ} (hX : X = kp.1 / (2 * Real.pi / wl))
    (hY : Y = kp.2 / (2 * Real.pi / wl)) (hpos : 0 < er - X ^ 2 - Y ^ 2) {u u' : Vec2 N}
    (hu : ∀ i, i ≠ i0 → u (.inl i) = 0 ∧ u (.inr i) = 0) (hu' : ∀ i, i ≠ i0 → u' (.inl i) = 0 ∧ u' (.inr i) = 0) :
    waveDot X Y (Real.sqrt (er - X ^ 2 - Y ^ 2)) (orderOf u' i0) (orderOf (st.Stot.s11 *ᵥ u) i0) =
      waveDot X Y (Real.sqrt (er - X ^ 2 - Y ^ 2)) (orderOf u i0) (orderOf (st'.Stot.s11 *ᵥ u') i0) := by
  obtain ⟨hr, hkx, hky⟩ := middle_order hb hi0 kp wl
  rw [← hX] at hkx
  rw [← hY] at hky
  have hk := order_opposite (built_opposite hb) kp wl
  have hL : List.Forall₂ (fun l l' : Layer N => l'.form = l.form ∧ l'.depth = l.depth) Ls Ls := by
    rw [List.forall₂_same]; exact fun _ _ => ⟨rfl, rfl⟩
  have := C75_lorentz he hb rfl h h' hL hst hst' (p := ⟨u, st.Stot.s11 *ᵥ u⟩) (q := ⟨st.Stot.s21 *ᵥ u, 0⟩)
    (p' := ⟨u', st'.Stot.s11 *ᵥ u'⟩) (q' := ⟨st'.Stot.s21 *ᵥ u', 0⟩) (by simp [Scatters]) (by simp [Scatters])
  rw [lorentz_outer _ (fun i => (hk i).1) (fun i => (hk i).2), lorentz_outer _ (fun i => (hk i).1) (fun i => (hk i).2)] at this
  simp only [mulVec_zero, dotProduct_zero, zero_dotProduct, sub_zero, mul_zero] at this
  have hz : (Real.sqrt (er - X ^ 2 - Y ^ 2) : ℂ) ≠ 0 := by exact_mod_cast (Real.sqrt_pos.2 hpos).ne'
  rw [← hkx, ← hky] at hpos
  rw [lorentzV_spec hr hpos _ _ (Or.inl hu'), lorentzV_spec hr hpos _ _ (Or.inr hu), hkx, hky] at this
  rw [waveDot_comm _ _ _ (orderOf u i0)]
  have h2 := (mul_eq_zero.1 this).resolve_left two_ne_zero
  rw [← mul_sub] at h2
  exact sub_eq_zero.1 ((mul_eq_zero.1 h2).resolve_left (mul_ne_zero Complex.I_ne_zero hz))

/-- Specular transmissions at opposite wave vectors through a device and the device turned over. -/
theorem transmission_pair (he : EigContract (lib.eig N)) (hb : Built c.expansion) (hx : c'.expansion = c.expansion)
    {i0 : Fin N} (hi0 : (i0 : ℕ) = (N - 1) / 2)
    (h : DeviceRun lib c stack m Ls er et wl te tm theta phi kpo kp c3)
    (h' : DeviceRun lib c' stack' m' Ls' et er wl te' tm' theta' phi' kpo' (-kp.1, -kp.2) c3')
    (hL : List.Forall₂ (fun l l' => l'.form = l.form ∧ l'.depth = l.depth) Ls.reverse Ls')
    (hst : c3.stacked = some st) (hst' : c3'.stacked = some st') {X Y : ℝ} (hX : X = kp.1 / (2 * Real.pi / wl))
    (hY : Y = kp.2 / (2 * Real.pi / wl)) (hpos : 0 < er - X ^ 2 - Y ^ 2) (hpos' : 0 < et - X ^ 2 - Y ^ 2) {u u' : Vec2 N}
    (hu : ∀ i, i ≠ i0 → u (.inl i) = 0 ∧ u (.inr i) = 0) (hu' : ∀ i, i ≠ i0 → u' (.inl i) = 0 ∧ u' (.inr i) = 0) :
    Real.sqrt (et - X ^ 2 - Y ^ 2) *
        waveDot X Y (Real.sqrt (et - X ^ 2 - Y ^ 2)) (orderOf u' i0) (orderOf (st.Stot.s21 *ᵥ u) i0) =
      Real.sqrt (er - X ^ 2 - Y ^ 2) *
        waveDot X Y (Real.sqrt (er - X ^ 2 - Y ^ 2)) (orderOf u i0) (orderOf (st'.Stot.s21 *ᵥ u') i0) := by
  obtain ⟨hr, hkx, hky⟩ := middle_order hb hi0 kp wl
  rw [← hX] at hkx
  rw [← hY] at hky
  have hk := order_opposite (built_opposite hb) kp wl
  have := C75_flipped he hb hx h h' hL hst hst' (p := ⟨u, st.Stot.s11 *ᵥ u⟩) (q := ⟨st.Stot.s21 *ᵥ u, 0⟩)
    (p' := ⟨u', st'.Stot.s11 *ᵥ u'⟩) (q' := ⟨st'.Stot.s21 *ᵥ u', 0⟩) (by simp [Scatters]) (by simp [Scatters])
  rw [lorentz_outer _ (fun i => (hk i).1) (fun i => (hk i).2), lorentz_outer _ (fun i => (hk i).1) (fun i => (hk i).2)] at this
  simp only [Port.flip, mulVec_zero, dotProduct_zero, zero_dotProduct, zero_sub] at this
  rw [← hkx, ← hky] at hpos hpos'
  rw [lorentzV_spec hr hpos _ _ (Or.inr hu), lorentzV_spec hr hpos' _ _ (Or.inl hu'), hkx, hky] at this
  rw [waveDot_comm _ _ _ (orderOf u i0)]
  have h2 := neg_injective (mul_left_cancel₀ two_ne_zero this)
  rw [mul_assoc, mul_assoc] at h2
  exact (mul_left_cancel₀ Complex.I_ne_zero h2).symm

/-- **C75.** The specular reflectance for unpolarised light is the same at opposite directions of incidence, for any
pattern and with absorbing layers. -/
theorem C75_reflectance (he : EigContract (lib.eig N)) (hb : Built c.expansion) (hwl : 0 < wl)
    (hcut : (kp.1 = 0 ∧ kp.2 = 0) ∨ (1 / 10 ^ 8) ^ 2 ≤ kp.1 ^ 2 + kp.2 ^ 2)
    {a1 a2 b1 b2 : Crystal N} {θ φ : Fin 4 → ℝ} {k : Fin 4 → Option (ℂ × ℂ)}
    (ha1 : DeviceRun lib c stack m Ls er et wl 1 0 (θ 0) (φ 0) (k 0) kp a1)
    (ha2 : DeviceRun lib c stack m Ls er et wl 0 1 (θ 1) (φ 1) (k 1) kp a2)
    (hb1 : DeviceRun lib c stack m Ls er et wl 1 0 (θ 2) (φ 2) (k 2) (-kp.1, -kp.2) b1)
    (hb2 : DeviceRun lib c stack m Ls er et wl 0 1 (θ 3) (φ 3) (k 3) (-kp.1, -kp.2) b2)
    {f1 f2 g1 g2 : Crystal.Fluxes N} (hf1 : a1.poyntingFluxEnd = .ok f1) (hf2 : a2.poyntingFluxEnd = .ok f2)
    (hg1 : b1.poyntingFluxEnd = .ok g1) (hg2 : b2.poyntingFluxEnd = .ok g2) {i0 : Fin N}
    (hi0 : (i0 : ℕ) = (N - 1) / 2) :
    f1.Rg i0 + f2.Rg i0 = g1.Rg i0 + g2.Rg i0 := by
  have hk0 : 0 < 2 * Real.pi / wl := by have := Real.pi_pos; positivity
  obtain ⟨X, hX⟩ : ∃ X, X = kp.1 / (2 * Real.pi / wl) := ⟨_, rfl⟩
  obtain ⟨Y, hY⟩ : ∃ Y, Y = kp.2 / (2 * Real.pi / wl) := ⟨_, rfl⟩
  obtain ⟨st1, u1, hst1, hu1, hpos, hR1, -⟩ := specular_run hb hi0 hwl (Or.inl rfl) (by simpa using ha1) hf1 hX hY
  obtain ⟨st2, u2, hst2, hu2, -, hR2, -⟩ := specular_run hb hi0 hwl (Or.inl rfl) (by simpa using ha2) hf2 hX hY
  obtain ⟨st3, v1, hst3, hv1, -, hR3, -⟩ := specular_run hb hi0 hwl (Or.inr rfl) (by simpa using hb1) hg1 hX hY
  obtain ⟨st4, v2, hst4, hv2, -, hR4, -⟩ := specular_run hb hi0 hwl (Or.inr rfl) (by simpa using hb2) hg2 hX hY
  obtain ⟨s1, s2, hA⟩ := run_basis hk0 hX hY hpos hcut hi0 (Or.inl rfl) hu1 hu2
  obtain ⟨s3, s4, hB⟩ := run_basis hk0 hX hY hpos hcut hi0 (Or.inr rfl) hv1 hv2
  have r11 := reflection_pair he hb hi0 ha1 hb1 hst1 hst3 hX hY hpos s1 s3
  have r12 := reflection_pair he hb hi0 ha1 hb2 hst1 hst4 hX hY hpos s1 s4
  have r21 := reflection_pair he hb hi0 ha2 hb1 hst2 hst3 hX hY hpos s2 s3
  have r22 := reflection_pair he hb hi0 ha2 hb2 hst2 hst4 hX hY hpos s2 s4
  rw [hR1, hR2, hR3, hR4, hB, hB, hA, hA, r11, r12, r21, r22]
  ring

/-- **C75.** The specular transmittance for unpolarised light is the same through a device and, at the opposite in-plane
wave vector, through the device turned over, for any pattern and with absorbing layers. -/
theorem C75_transmittance (he : EigContract (lib.eig N)) (hb : Built c.expansion) (hx : c'.expansion = c.expansion)
    (hwl : 0 < wl) (hcut : (kp.1 = 0 ∧ kp.2 = 0) ∨ (1 / 10 ^ 8) ^ 2 ≤ kp.1 ^ 2 + kp.2 ^ 2)
    (hL : List.Forall₂ (fun l l' => l'.form = l.form ∧ l'.depth = l.depth) Ls.reverse Ls')
    {a1 a2 b1 b2 : Crystal N} {θ φ : Fin 4 → ℝ} {k : Fin 4 → Option (ℂ × ℂ)}
    (ha1 : DeviceRun lib c stack m Ls er et wl 1 0 (θ 0) (φ 0) (k 0) kp a1)
    (ha2 : DeviceRun lib c stack m Ls er et wl 0 1 (θ 1) (φ 1) (k 1) kp a2)
    (hb1 : DeviceRun lib c' stack' m' Ls' et er wl 1 0 (θ 2) (φ 2) (k 2) (-kp.1, -kp.2) b1)
    (hb2 : DeviceRun lib c' stack' m' Ls' et er wl 0 1 (θ 3) (φ 3) (k 3) (-kp.1, -kp.2) b2)
    {f1 f2 g1 g2 : Crystal.Fluxes N} (hf1 : a1.poyntingFluxEnd = .ok f1) (hf2 : a2.poyntingFluxEnd = .ok f2)
    (hg1 : b1.poyntingFluxEnd = .ok g1) (hg2 : b2.poyntingFluxEnd = .ok g2) {i0 : Fin N}
    (hi0 : (i0 : ℕ) = (N - 1) / 2) :
    f1.Tg i0 + f2.Tg i0 = g1.Tg i0 + g2.Tg i0 := by
  have hk0 : 0 < 2 * Real.pi / wl := by have := Real.pi_pos; positivity
  obtain ⟨X, hX⟩ : ∃ X, X = kp.1 / (2 * Real.pi / wl) := ⟨_, rfl⟩
  obtain ⟨Y, hY⟩ : ∃ Y, Y = kp.2 / (2 * Real.pi / wl) := ⟨_, rfl⟩
  have hb' : Built c'.expansion := hx ▸ hb
  obtain ⟨st1, u1, hst1, hu1, hr, -, hR1⟩ := specular_run hb hi0 hwl (Or.inl rfl) (by simpa using ha1) hf1 hX hY
  obtain ⟨st2, u2, hst2, hu2, -, -, hR2⟩ := specular_run hb hi0 hwl (Or.inl rfl) (by simpa using ha2) hf2 hX hY
  obtain ⟨st3, v1, hst3, hv1, ht, -, hR3⟩ := specular_run hb' hi0 hwl (Or.inr rfl) (by simpa using hb1) hg1 hX hY
  obtain ⟨st4, v2, hst4, hv2, -, -, hR4⟩ := specular_run hb' hi0 hwl (Or.inr rfl) (by simpa using hb2) hg2 hX hY
  obtain ⟨s1, s2, hA⟩ := run_basis hk0 hX hY hr hcut hi0 (Or.inl rfl) hu1 hu2
  obtain ⟨s3, s4, hB⟩ := run_basis hk0 hX hY ht hcut hi0 (Or.inr rfl) hv1 hv2
  have r11 := transmission_pair he hb hx hi0 ha1 hb1 hL hst1 hst3 hX hY hr ht s1 s3
  have r12 := transmission_pair he hb hx hi0 ha1 hb2 hL hst1 hst4 hX hY hr ht s1 s4
  have r21 := transmission_pair he hb hx hi0 ha2 hb1 hL hst2 hst3 hX hY hr ht s2 s3
  have r22 := transmission_pair he hb hx hi0 ha2 hb2 hL hst2 hst4 hX hY hr ht s2 s4
  rw [hR1 ht, hR2 ht, hR3 hr, hR4 hr, hB, hB, hA, hA]
  have hzr := Real.sqrt_pos.2 hr
  have hzt := Real.sqrt_pos.2 ht
  have key : ∀ {a b : ℂ}, (Real.sqrt (et - X ^ 2 - Y ^ 2) : ℂ) * a = (Real.sqrt (er - X ^ 2 - Y ^ 2) : ℂ) * b →
      Real.sqrt (et - X ^ 2 - Y ^ 2) / Real.sqrt (er - X ^ 2 - Y ^ 2) * ‖a‖ ^ 2 =
        Real.sqrt (er - X ^ 2 - Y ^ 2) / Real.sqrt (et - X ^ 2 - Y ^ 2) * ‖b‖ ^ 2 := by
    intro a b hab
    have := congrArg (fun w => ‖w‖ ^ 2) hab
    simp only [norm_mul, mul_pow, Complex.norm_real, Real.norm_eq_abs, sq_abs] at this
    field_simp
    exact this
  linear_combination key r11 + key r12 + key r21 + key r22

end

/-- Non-vacuity of C75: oblique incidence on a 3×3 expansion, at an angle and the opposite one, in both polarisations;
the device and the device turned over. -/
example : ∃ (lib : NumLib) (c a1 a2 b1 b2 : Crystal (3 * 3)) (Ls : List (Layer (3 * 3))) (k : Fin 4 → Option (ℂ × ℂ))
    (f1 f2 g1 g2 : Crystal.Fluxes (3 * 3)),
    EigContract (lib.eig (3 * 3)) ∧ Built c.expansion ∧ (1 / 10 ^ 8 : ℝ) ^ 2 ≤ (Real.pi / 2) ^ 2 + 0 ^ 2 ∧
    List.Forall₂ (fun l l' => l'.form = l.form ∧ l'.depth = l.depth) Ls.reverse Ls ∧ Ls ≠ [] ∧
    DeviceRun lib c ["a"] (.inl true) Ls 1 1 2 1 0 0 0 (k 0) (Real.pi / 2, 0) a1 ∧
    DeviceRun lib c ["a"] (.inl true) Ls 1 1 2 0 1 0 0 (k 1) (Real.pi / 2, 0) a2 ∧
    DeviceRun lib c ["a"] (.inl true) Ls 1 1 2 1 0 0 0 (k 2) (-(Real.pi / 2), -0) b1 ∧
    DeviceRun lib c ["a"] (.inl true) Ls 1 1 2 0 1 0 0 (k 3) (-(Real.pi / 2), -0) b2 ∧
    a1.poyntingFluxEnd = .ok f1 ∧ a2.poyntingFluxEnd = .ok f2 ∧ b1.poyntingFluxEnd = .ok g1 ∧
    b2.poyntingFluxEnd = .ok g2 := by
  have hpi := Real.pi_pos
  have hp3 := Real.two_le_pi
  obtain ⟨e, he, hr, -, -⟩ := unit_expansion 0 (pw := (3, 3)) rfl rfl
  have hp1 : polNorm (1 : ℂ) 0 ≠ 0 := by simp [polNorm]
  have hp2 : polNorm (0 : ℂ) 1 ≠ 0 := by simp [polNorm]
  have k0 : Real.pi / 2 / (2 * Real.pi / 2) = 1 / 2 := by field_simp
  have k0' : -(Real.pi / 2) / (2 * Real.pi / 2) = -(1 / 2) := by rw [neg_div, k0]
  have hg : ∀ i, 1 - orderKx e (Real.pi / 2, 0) 2 i ^ 2 - orderKy e (Real.pi / 2, 0) 2 i ^ 2 ≠ 0 := by
    intro i
    have := halfBragg one_pos he i
    simpa using this
  have hg' : ∀ i, 1 - orderKx e (-(Real.pi / 2), -0) 2 i ^ 2 - orderKy e (-(Real.pi / 2), -0) 2 i ^ 2 ≠ 0 := by
    intro i
    have := order_opposite (built_opposite (Built.make he)) (Real.pi / 2, 0) 2 i.rev
    rw [Fin.rev_rev] at this
    rw [this.1, this.2, neg_sq, neg_sq]
    exact hg _
  have run := fun (te tm : ℂ) (hp : polNorm te tm ≠ 0) => vacuum_run plateLib e (by norm_num) (wl := 2) two_pos
    (kp := (Real.pi / 2, 0)) hg hp (theta := 0) (phi := 0)
    (kpo := some (((Real.pi / 2 : ℝ) : ℂ), ((0 : ℝ) : ℂ))) rfl
    (by simp only [k0]; norm_num) (.inr (by simp only; nlinarith)) (1 / 3)
  have run' := fun (te tm : ℂ) (hp : polNorm te tm ≠ 0) => vacuum_run plateLib e (by norm_num) (wl := 2) two_pos
    (kp := (-(Real.pi / 2), -0)) hg' hp (theta := 0) (phi := 0)
    (kpo := some (((-(Real.pi / 2) : ℝ) : ℂ), ((-0 : ℝ) : ℂ))) rfl
    (by simp only [k0']; norm_num) (.inr (by simp only; nlinarith)) (1 / 3)
  obtain ⟨a1, f1, h1, hf1⟩ := run 1 0 hp1
  obtain ⟨a2, f2, h2, hf2⟩ := run 0 1 hp2
  obtain ⟨b1, g1, h3, hg1⟩ := run' 1 0 hp1
  obtain ⟨b2, g2, h4, hg2⟩ := run' 0 1 hp2
  exact ⟨plateLib, oneLayer e (.uniform 1) (1 / 3), a1, a2, b1, b2, _, ![_, _, _, _], f1, f2, g1, g2, plateLib_contract _,
    Built.make he, by nlinarith, .cons ⟨rfl, rfl⟩ .nil, by simp, h1, h2, h3, h4, hf1, hf2, hg1, hg2⟩

end Khepri
