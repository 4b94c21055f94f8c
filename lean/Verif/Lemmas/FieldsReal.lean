import Verif.Lemmas.FieldsLinear
import Verif.Lemmas.Curl
import Mathlib.Analysis.SpecialFunctions.ExpDeriv

/-!
Real-space fields.
-/

set_option linter.unusedSectionVars false

namespace Khepri

open Matrix

variable {N : ℕ}

/-- The real-space components of Fourier components `f`, for in-plane wave vectors `k + g`. -/
noncomputable def pointOf (e : Expansion N) (k : ℂ × ℂ) (f : Fields6 N) (x y : ℝ) : Crystal.Point6 :=
  let r := fun s : Fin N → ℂ => idft s (fun i => k.1 + ((e.g i).1 : ℂ)) (fun i => k.2 + ((e.g i).2 : ℂ)) x y
  ⟨r f.sx, r f.sy, r f.sz, r f.ux, r f.uy, r f.uz⟩

theorem fieldsAt_eq (c : Crystal N) (x y z : ℝ) (inc : Option (Vec2 N × Vec2 N)) (kpo : Option (ℂ × ℂ)) :
    c.fieldsAt x y z inc kpo = (do
      pyCheck (c.stacked.isSome = true) .assertion
      let src ← Crystal.attr c.source
      let EH ← Crystal.orDefault inc c.sourceFields
      let _ ← c.expansion.kVectors (kpo.getD src.kp) src.wavelength 1
      let f ← c.fourierFields z EH.1 EH.2
      return pointOf c.expansion (kpo.getD src.kp) f x y) := by
  unfold Crystal.fieldsAt
  refine bind_congr fun _ => bind_congr fun src => bind_congr fun EH => ?_
  cases hk : c.expansion.kVectors (kpo.getD src.kp) src.wavelength 1 with
  | error e => rfl
  | ok r =>
    obtain ⟨kx, ky, kz⟩ := r
    obtain ⟨hw, h1, h2, -⟩ := kVectors_eq_ok.1 hk
    simp only at h1 h2
    simp only [ok_bind]
    refine bind_congr fun f => ?_
    have h0 : ((2 * Real.pi / src.wavelength : ℝ) : ℂ) ≠ 0 := by
      have : (2 * Real.pi / src.wavelength : ℝ) ≠ 0 := div_ne_zero (by positivity) hw
      exact_mod_cast this
    have e1 : (fun i => ((2 * Real.pi / src.wavelength : ℝ) : ℂ) * kx i) =
        fun i => (kpo.getD src.kp).1 + ((c.expansion.g i).1 : ℂ) := by
      funext i; rw [h1, mul_div_cancel₀ _ h0]
    have e2 : (fun i => ((2 * Real.pi / src.wavelength : ℝ) : ℂ) * ky i) =
        fun i => (kpo.getD src.kp).2 + ((c.expansion.g i).2 : ℂ) := by
      funext i; rw [h2, mul_div_cancel₀ _ h0]
    simp only [e1, e2, pointOf]

theorem fieldsAt_eq_ok {c : Crystal N} {x y z : ℝ} {inc : Option (Vec2 N × Vec2 N)} {kpo : Option (ℂ × ℂ)}
    {P : Crystal.Point6} : c.fieldsAt x y z inc kpo = .ok P ↔ c.stacked.isSome = true ∧ ∃ src EH f,
      c.source = some src ∧ Crystal.orDefault inc c.sourceFields = .ok EH ∧ src.wavelength ≠ 0 ∧
      c.fourierFields z EH.1 EH.2 = .ok f ∧ P = pointOf c.expansion (kpo.getD src.kp) f x y := by
  rw [fieldsAt_eq]
  simp only [bind_eq_ok, pyCheck_eq_ok, Crystal.attr_eq_ok]
  constructor
  · rintro ⟨_, h1, src, h2, EH, h3, k, h4, f, h5, h6⟩
    simp only [pure, Except.pure, Except.ok.injEq] at h6
    exact ⟨h1, src, EH, f, h2, h3, (kVectors_eq_ok.1 h4).1, h5, h6.symm⟩
  · rintro ⟨h1, src, EH, f, h2, h3, h4, h5, rfl⟩
    exact ⟨(), h1, src, h2, EH, h3, (_, _, _), kVectors_eq_ok.2 ⟨h4, rfl, rfl, rfl⟩, f, h5, rfl⟩

theorem pointOf_shift {e : Expansion N} {a : ℝ × ℝ} (ha : IsPeriod e a) (k : ℂ × ℂ) (f : Fields6 N) (x y : ℝ) :
    pointOf e k f (x + a.1) (y + a.2) =
      (pointOf e k f x y).scale (Complex.exp (Complex.I * (k.1 * a.1 + k.2 * a.2))) := by
  have key : ∀ s : Fin N → ℂ, idft s (fun i => k.1 + ((e.g i).1 : ℂ)) (fun i => k.2 + ((e.g i).2 : ℂ)) (x + a.1) (y + a.2) =
      Complex.exp (Complex.I * (k.1 * a.1 + k.2 * a.2)) *
        idft s (fun i => k.1 + ((e.g i).1 : ℂ)) (fun i => k.2 + ((e.g i).2 : ℂ)) x y := by
    intro s
    simp only [idft, Finset.mul_sum]
    refine Finset.sum_congr rfl fun i _ => ?_
    obtain ⟨n, hn⟩ := ha i
    have hn' : ((e.g i).1 : ℂ) * a.1 + (e.g i).2 * a.2 = 2 * Real.pi * n := by exact_mod_cast hn
    have : Complex.I * ((k.1 + ((e.g i).1 : ℂ)) * ((x + a.1 : ℝ) : ℂ) + (k.2 + ((e.g i).2 : ℂ)) * ((y + a.2 : ℝ) : ℂ)) =
        Complex.I * (k.1 * a.1 + k.2 * a.2) +
          Complex.I * ((k.1 + ((e.g i).1 : ℂ)) * x + (k.2 + ((e.g i).2 : ℂ)) * y) + n * (2 * Real.pi * Complex.I) := by
      push_cast
      linear_combination Complex.I * hn'
    rw [this, Complex.exp_add, Complex.exp_add, Complex.exp_int_mul_two_pi_mul_I]
    ring
  simp only [pointOf, Crystal.Point6.scale, key]

theorem pointOf_comb (e : Expansion N) (k : ℂ × ℂ) (a b : ℂ) (f g : Fields6 N) (x y : ℝ) :
    pointOf e k (Fields6.comb a f b g) x y = Crystal.Point6.comb a (pointOf e k f x y) b (pointOf e k g x y) := by
  have key : ∀ (s t : Fin N → ℂ) kx ky, idft (a • s + b • t) kx ky x y = a * idft s kx ky x y + b * idft t kx ky x y := by
    intro s t kx ky
    simp only [idft, Finset.mul_sum, ← Finset.sum_add_distrib]
    refine Finset.sum_congr rfl fun i _ => ?_
    simp only [Pi.add_apply, Pi.smul_apply, smul_eq_mul]
    ring
  simp only [pointOf, Crystal.Point6.comb, Fields6.comb, key]

theorem fieldsAt_lin (c : Crystal N) (x y z : ℝ) (kpo : Option (ℂ × ℂ)) :
    PyLin Crystal.Point6.comb (fun v : Vec2 N × Vec2 N => c.fieldsAt x y z (some v) kpo) := by
  simp only [fieldsAt_eq, Crystal.orDefault, ok_bind]
  refine PyLin.const fun _ => PyLin.const fun src => PyLin.const fun _ => ?_
  rcases fourierFields_lin c z with ⟨e, he⟩ | ⟨L, hL, hl⟩
  · exact .inl ⟨e, fun v => by simp only [he]; rfl⟩
  · refine .inr ⟨fun v => pointOf c.expansion (kpo.getD src.kp) (L v) x y, fun v => by simp only [hL]; rfl, ?_⟩
    intro a v b w
    simp only [hl, pointOf_comb]

theorem hasDerivAt_idft_x (s : Fin N → ℂ) (kx ky : Fin N → ℂ) (x y : ℝ) :
    HasDerivAt (fun x : ℝ => idft s kx ky x y) (idft (fun i => Complex.I * kx i * s i) kx ky x y) x := by
  unfold idft
  refine HasDerivAt.fun_sum fun i _ => ?_
  have h1 : HasDerivAt (fun x : ℝ => Complex.I * (kx i * (x : ℂ) + ky i * y)) (Complex.I * kx i) x := by
    have := (((Complex.ofRealCLM.hasDerivAt (x := x)).const_mul (kx i)).add_const (ky i * (y : ℂ))).const_mul Complex.I
    simpa using this
  exact (h1.cexp.const_mul (s i)).congr_deriv (by ring)

theorem hasDerivAt_idft_y (s : Fin N → ℂ) (kx ky : Fin N → ℂ) (x y : ℝ) :
    HasDerivAt (fun y : ℝ => idft s kx ky x y) (idft (fun i => Complex.I * ky i * s i) kx ky x y) y := by
  unfold idft
  refine HasDerivAt.fun_sum fun i _ => ?_
  have h1 : HasDerivAt (fun y : ℝ => Complex.I * (kx i * (x : ℂ) + ky i * y)) (Complex.I * ky i) y := by
    have := (((Complex.ofRealCLM.hasDerivAt (x := y)).const_mul (ky i)).const_add (kx i * (x : ℂ))).const_mul Complex.I
    simpa using this
  exact (h1.cexp.const_mul (s i)).congr_deriv (by ring)

theorem hasDerivAt_idft_z {s : ℝ → Fin N → ℂ} {s' : Fin N → ℂ} (kx ky : Fin N → ℂ) (x y : ℝ) {z : ℝ}
    (h : ∀ i, HasDerivAt (fun z => s z i) (s' i) z) :
    HasDerivAt (fun z => idft (s z) kx ky x y) (idft s' kx ky x y) z := by
  unfold idft
  exact HasDerivAt.fun_sum fun i _ => (h i).mul_const _

/-- The Fourier components at a depth, as a function. -/
noncomputable def fourierAt (c : Crystal N) (E H : Vec2 N) (z : ℝ) : Fields6 N :=
  match c.fourierFields z E H with
  | .ok f => f
  | .error _ => ⟨0, 0, 0, 0, 0, 0⟩

theorem fourierAt_ok {c : Crystal N} {E H : Vec2 N} {z : ℝ} {f : Fields6 N} (h : c.fourierFields z E H = .ok f) :
    fourierAt c E H z = f := by
  simp only [fourierAt, h]

theorem idft_smul (a : ℂ) (s : Fin N → ℂ) (kx ky : Fin N → ℂ) (x y : ℝ) :
    idft (fun i => a * s i) kx ky x y = a * idft s kx ky x y := by
  simp only [idft, Finset.mul_sum, mul_assoc]

theorem idft_sub (s t : Fin N → ℂ) (kx ky : Fin N → ℂ) (x y : ℝ) :
    idft (fun i => s i - t i) kx ky x y = idft s kx ky x y - idft t kx ky x y := by
  simp only [idft, ← Finset.sum_sub_distrib, sub_mul]

/-- The real-space fields at the mirrored point obey Maxwell's equations in a uniform medium. -/
theorem realMaxwell_of_curl {kx ky : Fin N → ℝ} {k0 : ℝ} {eps : ℂ} {F : ℝ → Fields6 N} {z : ℝ}
    (h : CurlEquations kx ky k0 (eps • 1) F z) {M : ℝ → ℝ → ℝ → Crystal.Point6} (x y : ℝ)
    (hM : ∀ x y, ∀ᶠ z in nhds z, M x y z =
      ⟨idft (F z).sx (fun i => k0 * kx i) (fun i => k0 * ky i) (-x) (-y),
       idft (F z).sy (fun i => k0 * kx i) (fun i => k0 * ky i) (-x) (-y),
       idft (F z).sz (fun i => k0 * kx i) (fun i => k0 * ky i) (-x) (-y),
       idft (F z).ux (fun i => k0 * kx i) (fun i => k0 * ky i) (-x) (-y),
       idft (F z).uy (fun i => k0 * kx i) (fun i => k0 * ky i) (-x) (-y),
       idft (F z).uz (fun i => k0 * kx i) (fun i => k0 * ky i) (-x) (-y)⟩) :
    RealMaxwell k0 eps M x y z := by
  set K : Fin N → ℂ := fun i => k0 * kx i with hK
  set L : Fin N → ℂ := fun i => k0 * ky i with hL
  have h0 := fun x y => (hM x y).self_of_nhds
  have dx : ∀ s : Fin N → ℂ, HasDerivAt (fun x : ℝ => idft s K L (-x) (-y))
      (-idft (fun i => Complex.I * K i * s i) K L (-x) (-y)) x := by
    intro s
    have := (hasDerivAt_idft_x s K L (-x) (-y)).scomp x (hasDerivAt_neg x)
    simpa [Function.comp_def] using this
  have dy : ∀ s : Fin N → ℂ, HasDerivAt (fun y : ℝ => idft s K L (-x) (-y))
      (-idft (fun i => Complex.I * L i * s i) K L (-x) (-y)) y := by
    intro s
    have := (hasDerivAt_idft_y s K L (-x) (-y)).scomp y (hasDerivAt_neg y)
    simpa [Function.comp_def] using this
  have dz : ∀ {s : ℝ → Fin N → ℂ} {s' : Fin N → ℂ} {g : Crystal.Point6 → ℂ},
      (∀ i, HasDerivAt (fun z => s z i) (s' i) z) →
      (∀ᶠ z in nhds z, g (M x y z) = idft (s z) K L (-x) (-y)) →
      HasDerivAt (fun z => g (M x y z)) (idft s' K L (-x) (-y)) z := by
    intro s s' g hs he
    exact (hasDerivAt_idft_z K L (-x) (-y) hs).congr_of_eventuallyEq he
  have dx' : ∀ {s : Fin N → ℂ} {g : Crystal.Point6 → ℂ}, (∀ x, g (M x y z) = idft s K L (-x) (-y)) →
      HasDerivAt (fun x => g (M x y z)) (-idft (fun i => Complex.I * K i * s i) K L (-x) (-y)) x := by
    intro s g hs; simp only [hs]; exact dx s
  have dy' : ∀ {s : Fin N → ℂ} {g : Crystal.Point6 → ℂ}, (∀ y, g (M x y z) = idft s K L (-x) (-y)) →
      HasDerivAt (fun y => g (M x y z)) (-idft (fun i => Complex.I * L i * s i) K L (-x) (-y)) y := by
    intro s g hs; simp only [hs]; exact dy s
  have pz := hM x y
  refine ⟨?_, ?_, ?_, ?_, ?_, ?_⟩
  · refine ⟨_, _, dz (g := Crystal.Point6.ex) h.ex (pz.mono fun z hz => by rw [hz]), dx' (s := (F z).sz) (g := Crystal.Point6.ez) (fun x => by rw [h0]), ?_⟩
    simp only [h0]
    rw [← idft_smul]
    simp only [idft, ← Finset.sum_sub_distrib, ← Finset.sum_neg_distrib]
    refine Finset.sum_congr rfl fun i _ => ?_
    simp only [hK]; ring
  · refine ⟨_, _, dy' (s := (F z).sz) (g := Crystal.Point6.ez) (fun y => by rw [h0]), dz (g := Crystal.Point6.ey) h.ey (pz.mono fun z hz => by rw [hz]), ?_⟩
    simp only [h0]
    rw [← idft_smul]
    simp only [idft, ← Finset.sum_sub_distrib, ← Finset.sum_neg_distrib]
    refine Finset.sum_congr rfl fun i _ => ?_
    simp only [hL]; ring
  · refine ⟨_, _, dx' (s := (F z).sy) (g := Crystal.Point6.ey) (fun x => by rw [h0]), dy' (s := (F z).sx) (g := Crystal.Point6.ex) (fun y => by rw [h0]), ?_⟩
    simp only [h0]
    rw [← idft_smul]
    simp only [idft, ← Finset.sum_sub_distrib, ← Finset.sum_neg_distrib]
    refine Finset.sum_congr rfl fun i _ => ?_
    simp only [hK, hL, h.hz]; ring
  · refine ⟨_, _, dy' (s := (F z).uz) (g := Crystal.Point6.hz) (fun y => by rw [h0]), dz (g := Crystal.Point6.hy) h.hy (pz.mono fun z hz => by rw [hz]), ?_⟩
    simp only [h0]
    rw [← idft_smul, ← idft_smul]
    simp only [idft, ← Finset.sum_sub_distrib, ← Finset.sum_neg_distrib]
    refine Finset.sum_congr rfl fun i _ => ?_
    simp only [hL, smul_mulVec, one_mulVec, Pi.smul_apply, smul_eq_mul]; ring
  · refine ⟨_, _, dz (g := Crystal.Point6.hx) h.hx (pz.mono fun z hz => by rw [hz]), dx' (s := (F z).uz) (g := Crystal.Point6.hz) (fun x => by rw [h0]), ?_⟩
    simp only [h0]
    rw [← idft_smul, ← idft_smul]
    simp only [idft, ← Finset.sum_sub_distrib, ← Finset.sum_neg_distrib]
    refine Finset.sum_congr rfl fun i _ => ?_
    simp only [hK, smul_mulVec, one_mulVec, Pi.smul_apply, smul_eq_mul]; ring
  · refine ⟨_, _, dx' (s := (F z).uy) (g := Crystal.Point6.hy) (fun x => by rw [h0]), dy' (s := (F z).ux) (g := Crystal.Point6.hx) (fun y => by rw [h0]), ?_⟩
    simp only [h0]
    rw [← idft_smul, ← idft_smul]
    simp only [idft, ← Finset.sum_sub_distrib, ← Finset.sum_neg_distrib]
    refine Finset.sum_congr rfl fun i _ => ?_
    have := h.ez i
    simp only [smul_mulVec, one_mulVec, Pi.smul_apply, smul_eq_mul] at this
    simp only [hK, hL]
    linear_combination (-(k0 : ℂ) * Complex.exp (Complex.I * (k0 * kx i * ((-x : ℝ) : ℂ) + k0 * ky i * ((-y : ℝ) : ℂ)))) * this

end Khepri
