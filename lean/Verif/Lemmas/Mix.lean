import Verif.Lemmas.Mirror
import Verif.Lemmas.FieldsSource

set_option linter.unusedSectionVars false

/-!
One device under several polarisations.
-/

namespace Khepri

open Matrix

section
variable {N : ℕ}

theorem outcome_same {kx ky : Fin N → ℝ} {er et x0 x0' : ℝ} {Ms : List (Mat2 N × Mat2 N × ℝ)}
    {S S' : SMat (Fin N ⊕ Fin N)} {inc inc' : Vec2 N} {F F' : Crystal.Fluxes N}
    (h : Outcome kx ky er et x0 Ms S inc F) (h' : Outcome kx ky er et x0' Ms S' inc' F') : S' = S := by
  have put1 : ∀ t : Tang (Fin N ⊕ Fin N), t.put 1 1 = t := by
    intro t; simp [Tang.put]
  have put2 : ∀ p : Port (Fin N ⊕ Fin N), p.put 1 = p := by
    intro p; simp [Port.put]
  obtain ⟨e1, e2, e3, e4⟩ := scatters_put (UE := (1 : Mat2 N)) (UH := 1) (Ms := Ms) (Ms' := Ms)
    (List.forall₂_same.2 fun M _ => ⟨by simp, by simp, rfl⟩) h.scat h'.scat
    (fun p => by rw [put1, put2]) (fun p => by rw [put1, put2])
  simp only [Matrix.mul_one, Matrix.one_mul] at e1 e2 e3 e4
  cases S
  cases S'
  simp_all

variable {kx ky : Fin N → ℝ} {kz : Fin N → ℂ}

theorem waveNorm_smul (a : ℂ) (v : Vec2 N) (i : Fin N) : waveNorm kx ky kz (a • v) i = ‖a‖ ^ 2 * waveNorm kx ky kz v i := by
  unfold waveNorm
  simp only [Pi.smul_apply, smul_eq_mul]
  rw [show -(↑(kx i) * (a * v (.inl i)) + ↑(ky i) * (a * v (.inr i))) / kz i =
    a * (-(↑(kx i) * v (.inl i) + ↑(ky i) * v (.inr i)) / kz i) by ring, norm_mul, norm_mul, norm_mul]
  ring

/-- A sum of squared lengths of two waves. -/
theorem norm_mix (a b x y : ℂ) :
    ‖a * x + b * y‖ ^ 2 + ‖-star b * x + star a * y‖ ^ 2 = (‖a‖ ^ 2 + ‖b‖ ^ 2) * (‖x‖ ^ 2 + ‖y‖ ^ 2) := by
  simp only [normSq_re_im, Complex.add_re, Complex.add_im, Complex.mul_re, Complex.mul_im, Complex.neg_re,
    Complex.neg_im, Complex.star_def, Complex.conj_re, Complex.conj_im]
  ring

theorem waveNorm_mix (a b : ℂ) (v w : Vec2 N) (i : Fin N) :
    waveNorm kx ky kz (a • v + b • w) i + waveNorm kx ky kz (-star b • v + star a • w) i =
      (‖a‖ ^ 2 + ‖b‖ ^ 2) * (waveNorm kx ky kz v i + waveNorm kx ky kz w i) := by
  unfold waveNorm
  simp only [Pi.add_apply, Pi.smul_apply, smul_eq_mul]
  have e : ∀ a b : ℂ, -(↑(kx i) * (a * v (.inl i) + b * w (.inl i)) + ↑(ky i) * (a * v (.inr i) + b * w (.inr i))) / kz i =
      a * (-(↑(kx i) * v (.inl i) + ↑(ky i) * v (.inr i)) / kz i) +
        b * (-(↑(kx i) * w (.inl i) + ↑(ky i) * w (.inr i)) / kz i) := by intro a b; ring
  rw [e, e]
  linear_combination norm_mix a b (v (.inl i)) (w (.inl i)) + norm_mix a b (v (.inr i)) (w (.inr i)) +
    norm_mix a b (-(↑(kx i) * v (.inl i) + ↑(ky i) * v (.inr i)) / kz i) (-(↑(kx i) * w (.inl i) + ↑(ky i) * w (.inr i)) / kz i)

theorem waveNorm_parallelogram (v w : Vec2 N) (i : Fin N) :
    waveNorm kx ky kz (v + w) i + waveNorm kx ky kz (v - w) i = 2 * (waveNorm kx ky kz v i + waveNorm kx ky kz w i) := by
  have h := waveNorm_mix (kx := kx) (ky := ky) (kz := kz) 1 1 v w i
  have h2 : waveNorm kx ky kz (-star (1 : ℂ) • v + star (1 : ℂ) • w) i = waveNorm kx ky kz (v - w) i := by
    have : -star (1 : ℂ) • v + star (1 : ℂ) • w = (-1 : ℂ) • (v - w) := by
      simp [sub_eq_add_neg, add_comm]
    rw [this, waveNorm_smul]
    simp
  rw [h2] at h
  simpa [show (1 : ℝ) + 1 = 2 by norm_num] using h

/-- The incident amplitudes of any polarisation. -/
theorem incident_mix {te tm : ℂ} {k : C3} {inc inc1 inc2 : Vec2 N} (h : incident N te tm k = .ok inc)
    (h1 : incident N 1 0 k = .ok inc1) (h2 : incident N 0 1 k = .ok inc2) :
    inc = (te / polNorm te tm) • inc1 + (tm / polNorm te tm) • inc2 := by
  obtain ⟨-, -, aTE, aTM, hp, rfl⟩ := incident_eq_ok.1 h
  obtain ⟨-, -, aTE1, aTM1, hp1, rfl⟩ := incident_eq_ok.1 h1
  obtain ⟨-, -, aTE2, aTM2, hp2, rfl⟩ := incident_eq_ok.1 h2
  rw [hp, Except.ok.injEq, Prod.mk.injEq] at hp1 hp2
  obtain ⟨rfl, rfl⟩ := hp1
  obtain ⟨rfl, rfl⟩ := hp2
  have n1 : polNorm (1 : ℂ) 0 = 1 := by simp [polNorm]
  have n2 : polNorm (0 : ℂ) 1 = 1 := by simp [polNorm]
  funext j
  rcases j with j | j <;> simp only [Sum.elim_inl, Sum.elim_inr, Pi.add_apply, Pi.smul_apply, smul_eq_mul, n1, n2] <;>
    push_cast <;> ring

theorem polNorm_share (te tm : ℂ) :
    ‖te / (polNorm te tm : ℂ)‖ ^ 2 = ‖te‖ ^ 2 / (‖te‖ ^ 2 + ‖tm‖ ^ 2) ∧
      ‖tm / (polNorm te tm : ℂ)‖ ^ 2 = ‖tm‖ ^ 2 / (‖te‖ ^ 2 + ‖tm‖ ^ 2) := by
  have h2 : polNorm te tm ^ 2 = ‖te‖ ^ 2 + ‖tm‖ ^ 2 := Real.sq_sqrt (by positivity)
  constructor <;> rw [norm_div, div_pow, Complex.norm_real, Real.norm_eq_abs, sq_abs, h2]

variable {er et x0 : ℝ} {Ms : List (Mat2 N × Mat2 N × ℝ)} {S : SMat (Fin N ⊕ Fin N)} {inc inc1 inc2 inc' : Vec2 N}
  {F F1 F2 F' : Crystal.Fluxes N}

/-- The outcome of an incident wave that need not have been calculated. -/
theorem outcome_exists (h : Outcome kx ky er et x0 Ms S inc F) (inc' : Vec2 N) :
    ∃ F', Outcome kx ky er et x0 Ms S inc' F' :=
  ⟨{ Rg := fun i => (outerKz (er - kx i ^ 2 - ky i ^ 2)).re / Real.sqrt x0 *
        waveNorm kx ky (fun i => outerKz (er - kx i ^ 2 - ky i ^ 2)) (S.s11 *ᵥ inc') i
     Tg := fun i => (outerKz (et - kx i ^ 2 - ky i ^ 2)).re / Real.sqrt x0 *
        waveNorm kx ky (fun i => outerKz (et - kx i ^ 2 - ky i ^ 2)) (S.s21 *ᵥ inc') i
     R := ∑ i, (outerKz (er - kx i ^ 2 - ky i ^ 2)).re / Real.sqrt x0 *
        waveNorm kx ky (fun i => outerKz (er - kx i ^ 2 - ky i ^ 2)) (S.s11 *ᵥ inc') i
     T := ∑ i, (outerKz (et - kx i ^ 2 - ky i ^ 2)).re / Real.sqrt x0 *
        waveNorm kx ky (fun i => outerKz (et - kx i ^ 2 - ky i ^ 2)) (S.s21 *ᵥ inc') i },
    h.scat, fun _ => rfl, fun _ => rfl, rfl, rfl⟩

/-- The powers of two orthogonal mixtures of two waves. -/
theorem outcome_mix {a b a' b' : ℂ} (h1 : Outcome kx ky er et x0 Ms S inc1 F1) (h2 : Outcome kx ky er et x0 Ms S inc2 F2)
    (h : Outcome kx ky er et x0 Ms S (a • inc1 + b • inc2) F) (h' : Outcome kx ky er et x0 Ms S (a' • inc1 + b' • inc2) F')
    (hn : ‖a‖ ^ 2 + ‖b‖ ^ 2 = 1) (hn' : ‖a'‖ ^ 2 + ‖b'‖ ^ 2 = 1) (ho : a * star a' + b * star b' = 0) (i : Fin N) :
    F.Rg i + F'.Rg i = F1.Rg i + F2.Rg i ∧ F.Tg i + F'.Tg i = F1.Tg i + F2.Tg i := by
  have hnC : a * star a + b * star b = 1 := by
    have e := congrArg (fun x : ℝ => (x : ℂ)) hn
    push_cast at e
    rw [← Complex.mul_conj', ← Complex.mul_conj'] at e
    simpa using e
  have hoC : star a * a' + star b * b' = 0 := by
    have e := congrArg star ho
    simpa [mul_comm] using e
  obtain ⟨μ, hμ⟩ : ∃ μ : ℂ, μ = b' * a - a' * b := ⟨_, rfl⟩
  have ea : a' = μ * -star b := by
    rw [hμ]; linear_combination -a' * hnC + a * hoC
  have eb : b' = μ * star a := by
    rw [hμ]; linear_combination -b' * hnC + b * hoC
  have hm : ‖μ‖ ^ 2 = 1 := by
    rw [ea, eb, norm_mul, norm_mul, norm_neg, norm_star, norm_star] at hn'
    have : ‖μ‖ ^ 2 * (‖a‖ ^ 2 + ‖b‖ ^ 2) = 1 := by linarith
    rwa [hn, mul_one] at this
  have key : ∀ (kz : Fin N → ℂ) (v w : Vec2 N), waveNorm kx ky kz (a • v + b • w) i + waveNorm kx ky kz (a' • v + b' • w) i =
      waveNorm kx ky kz v i + waveNorm kx ky kz w i := by
    intro kz v w
    have e := waveNorm_mix (kx := kx) (ky := ky) (kz := kz) a b v w i
    rw [hn, one_mul] at e
    rw [← e, ea, eb, mul_smul, mul_smul, ← smul_add, waveNorm_smul, hm, one_mul]
  rw [h.Rg, h'.Rg, h1.Rg, h2.Rg, h.Tg, h'.Tg, h1.Tg, h2.Tg]
  simp only [mulVec_add, mulVec_smul]
  rw [← mul_add, ← mul_add, ← mul_add, ← mul_add, key, key]
  exact ⟨rfl, rfl⟩

/-- The powers of two mixtures of two waves, one with the second wave reversed. -/
theorem outcome_reversed {a b : ℂ} (h1 : Outcome kx ky er et x0 Ms S inc1 F1) (h2 : Outcome kx ky er et x0 Ms S inc2 F2)
    (h : Outcome kx ky er et x0 Ms S (a • inc1 + b • inc2) F) (h' : Outcome kx ky er et x0 Ms S (a • inc1 + (-b) • inc2) F')
    (i : Fin N) :
    F.Rg i + F'.Rg i = 2 * (‖a‖ ^ 2 * F1.Rg i + ‖b‖ ^ 2 * F2.Rg i) ∧
      F.Tg i + F'.Tg i = 2 * (‖a‖ ^ 2 * F1.Tg i + ‖b‖ ^ 2 * F2.Tg i) := by
  have key : ∀ (kz : Fin N → ℂ) (v w : Vec2 N), waveNorm kx ky kz (a • v + b • w) i + waveNorm kx ky kz (a • v + (-b) • w) i =
      2 * (‖a‖ ^ 2 * waveNorm kx ky kz v i + ‖b‖ ^ 2 * waveNorm kx ky kz w i) := by
    intro kz v w
    have e := waveNorm_parallelogram (kx := kx) (ky := ky) (kz := kz) (a • v) (b • w) i
    rw [waveNorm_smul, waveNorm_smul] at e
    rw [neg_smul, ← sub_eq_add_neg, e]
  rw [h.Rg, h'.Rg, h1.Rg, h2.Rg, h.Tg, h'.Tg, h1.Tg, h2.Tg]
  simp only [mulVec_add, mulVec_smul]
  rw [← mul_add, ← mul_add, key, key]
  constructor <;> ring

end

section
variable {N : ℕ} {lib : NumLib} {c c3 c31 c32 : Crystal N} {stack : List String} {m m1 m2 : Bool ⊕ List Bool}
  {Ls : List (Layer N)} {er et wl : ℝ} {te tm : ℂ} {theta phi theta1 phi1 theta2 phi2 : ℝ}
  {kpo kpo1 kpo2 : Option (ℂ × ℂ)} {kp : R2} {F F1 F2 : Crystal.Fluxes N}

/-- The wave vector of the source. -/
noncomputable abbrev sourceK (er wl : ℝ) (kp : R2) : C3 :=
  ⟨kp.1, kp.2, star (csqrt (((2 * Real.pi / wl : ℝ) : ℂ) ^ 2 * er - (kp.1 : ℂ) ^ 2 - (kp.2 : ℂ) ^ 2))⟩

/-- The outcome of a device for an incident wave. -/
abbrev OutcomeAt (e : Expansion N) (er et wl : ℝ) (kp : R2) (Ms : List (Mat2 N × Mat2 N × ℝ))
    (S : SMat (Fin N ⊕ Fin N)) (inc : Vec2 N) (F : Crystal.Fluxes N) : Prop :=
  Outcome (orderKx e kp wl) (orderKy e kp wl) er et
    (er - (kp.1 / (2 * Real.pi / wl)) ^ 2 - (kp.2 / (2 * Real.pi / wl)) ^ 2) Ms S inc F

theorem runs_pair (he : EigContract (lib.eig N))
    (h1 : DeviceRun lib c stack m1 Ls er et wl 1 0 theta1 phi1 kpo1 kp c31)
    (h2 : DeviceRun lib c stack m2 Ls er et wl 0 1 theta2 phi2 kpo2 kp c32) (hwl : 0 < wl)
    (hF1 : c31.poyntingFluxEnd = .ok F1) (hF2 : c32.poyntingFluxEnd = .ok F2) :
    ∃ Ms S inc1 inc2, LayerEquations lib.jv1 c.expansion (orderKx c.expansion kp wl) (orderKy c.expansion kp wl)
        (2 * Real.pi / wl) Ls Ms ∧ 0 < er - (kp.1 / (2 * Real.pi / wl)) ^ 2 - (kp.2 / (2 * Real.pi / wl)) ^ 2 ∧
      incident N 1 0 (sourceK er wl kp) = .ok inc1 ∧ incident N 0 1 (sourceK er wl kp) = .ok inc2 ∧
      OutcomeAt c.expansion er et wl kp Ms S inc1 F1 ∧ OutcomeAt c.expansion er et wl kp Ms S inc2 F2 := by
  obtain ⟨st, Ms, inc1, -, hM, hi, hpos, ho⟩ := h1.outcome he hwl hF1
  obtain ⟨st2, Ms2, inc2, -, hM2, hi2, -, ho2⟩ := h2.outcome he hwl hF2
  obtain rfl := layerEquations_unique hM hM2
  rw [outcome_same ho ho2] at ho2
  exact ⟨Ms, st.Stot, inc1, inc2, hM, hpos, hi, hi2, ho, ho2⟩

theorem run_mix (he : EigContract (lib.eig N)) (h : DeviceRun lib c stack m Ls er et wl te tm theta phi kpo kp c3)
    (hwl : 0 < wl) (hF : c3.poyntingFluxEnd = .ok F) {Ms : List (Mat2 N × Mat2 N × ℝ)} {S : SMat (Fin N ⊕ Fin N)}
    {inc1 inc2 : Vec2 N}
    (hM : LayerEquations lib.jv1 c.expansion (orderKx c.expansion kp wl) (orderKy c.expansion kp wl)
      (2 * Real.pi / wl) Ls Ms) (h1 : OutcomeAt c.expansion er et wl kp Ms S inc1 F1)
    (i1 : incident N 1 0 (sourceK er wl kp) = .ok inc1) (i2 : incident N 0 1 (sourceK er wl kp) = .ok inc2) :
    OutcomeAt c.expansion er et wl kp Ms S ((te / polNorm te tm) • inc1 + (tm / polNorm te tm) • inc2) F ∧
      incident N te tm (sourceK er wl kp) = .ok ((te / polNorm te tm) • inc1 + (tm / polNorm te tm) • inc2) := by
  obtain ⟨st, Ms', inc, -, hM', hi, -, ho⟩ := h.outcome he hwl hF
  obtain rfl := layerEquations_unique hM hM'
  rw [outcome_same h1 ho] at ho
  have e := incident_mix hi i1 i2
  rw [e] at ho hi
  exact ⟨ho, hi⟩

theorem polNorm_share_sum {te tm : ℂ} (h : polNorm te tm ≠ 0) :
    ‖te / (polNorm te tm : ℂ)‖ ^ 2 + ‖tm / (polNorm te tm : ℂ)‖ ^ 2 = 1 := by
  rw [(polNorm_share te tm).1, (polNorm_share te tm).2, ← add_div, div_self]
  rw [← polNorm_sq]
  exact pow_ne_zero _ h

/-- A device that a mirror leaves as it is, with the mirror containing the plane of incidence. -/
theorem device_mirror (he : EigContract (lib.eig N)) (h : DeviceRun lib c stack m Ls er et wl te tm theta phi kpo kp c3)
    (h1 : DeviceRun lib c stack m1 Ls er et wl 1 0 theta1 phi1 kpo1 kp c31)
    (h2 : DeviceRun lib c stack m2 Ls er et wl 0 1 theta2 phi2 kpo2 kp c32) (hwl : 0 < wl)
    (hF : c3.poyntingFluxEnd = .ok F) (hF1 : c31.poyntingFluxEnd = .ok F1) (hF2 : c32.poyntingFluxEnd = .ok F2)
    {f : Fin N → Fin N} {d : Fin N → ℂ} {o : Turn} (hf : Function.Injective f) (hd : ∀ b, ‖d b‖ = 1)
    (hg : ∀ b, c.expansion.g (f b) = o.app (c.expansion.g b)) (hkp : o.app kp = kp)
    (hL : ∀ l ∈ Ls, ∀ C, Permittivity lib.jv1 c.expansion l.form C → C * embedMat f d = embedMat f d * C)
    (hs : ∀ te tm : ℂ, SourceTurned o kp te tm te (-tm)) (b0 : Fin N) (hb0 : (b0 : ℕ) = (N - 1) / 2)
    (hmid : ((f b0 : Fin N) : ℕ) = (N - 1) / 2) :
    (∀ b, F.Rg b + F.Rg (f b) = 2 * (‖te‖ ^ 2 * F1.Rg b + ‖tm‖ ^ 2 * F2.Rg b) / (‖te‖ ^ 2 + ‖tm‖ ^ 2) ∧
      F.Tg b + F.Tg (f b) = 2 * (‖te‖ ^ 2 * F1.Tg b + ‖tm‖ ^ 2 * F2.Tg b) / (‖te‖ ^ 2 + ‖tm‖ ^ 2)) ∧
    F.R = (‖te‖ ^ 2 * F1.R + ‖tm‖ ^ 2 * F2.R) / (‖te‖ ^ 2 + ‖tm‖ ^ 2) ∧
    F.T = (‖te‖ ^ 2 * F1.T + ‖tm‖ ^ 2 * F2.T) / (‖te‖ ^ 2 + ‖tm‖ ^ 2) := by
  obtain ⟨Ms, S, inc1, inc2, hM, hpos, i1, i2, o1, o2⟩ := runs_pair he h1 h2 hwl hF1 hF2
  obtain ⟨ho, hi⟩ := run_mix he h hwl hF hM o1 i1 i2
  have hk0 : 0 < 2 * Real.pi / wl := by have := Real.pi_pos; positivity
  have hk : ∀ b, (orderKx c.expansion kp wl (f b), orderKy c.expansion kp wl (f b)) =
      o.app (orderKx c.expansion kp wl b, orderKy c.expansion kp wl b) := by
    intro b
    have e1 := congrArg Prod.fst hkp
    have e2 := congrArg Prod.snd hkp
    simp only [orderKx, orderKy, hg, Turn.app, Prod.mk.injEq] at e1 e2 ⊢
    constructor
    · nth_rewrite 1 [← e1]; ring
    · nth_rewrite 1 [← e2]; ring
  have hMM : List.Forall₂ (fun M M' => M'.1 * ((o.e : ℂ) • carryMat f d o) = carryMat f d o * M.1 ∧
      M'.2.1 * carryMat f d o = ((o.e : ℂ) • carryMat f d o) * M.2.1 ∧ M'.2.2 = M.2.2) Ms Ms := by
    unfold LayerEquations at hM
    clear o1 o2 ho h h1 h2
    induction hM with
    | nil => exact .nil
    | cons a _ ih =>
      obtain ⟨C, hC, hdt, rfl⟩ := a
      obtain ⟨e1, e2⟩ := carry_layer hk hdt hdt (hL _ (by simp) C hC)
      exact .cons ⟨e1, e2, rfl⟩ (ih fun l hl => hL l (by simp [hl]))
  have hp : polNorm te tm ≠ 0 := (incident_eq_ok.1 hi).2.1
  have hn : polNorm te (-tm) = polNorm te tm := by simp [polNorm]
  obtain ⟨inc', hi'⟩ : ∃ inc', incident N te (-tm) (sourceK er wl kp) = .ok inc' := by
    obtain ⟨a1, -, aTE, aTM, a3, -⟩ := incident_eq_ok.1 hi
    exact ⟨_, incident_eq_ok.2 ⟨a1, by rw [hn]; exact hp, aTE, aTM, a3, rfl⟩⟩
  have e' := incident_mix hi' i1 i2
  rw [hn, neg_div] at e'
  obtain ⟨F', ho'⟩ := outcome_exists ho inc'
  obtain ⟨w, hw, hwi⟩ := incident_turn (hs te tm) hk0 hpos hi (by rw [hkp]; exact hi') hf hd b0 hb0 hmid
  obtain ⟨q1, -, q2, q3⟩ := outcome_carry ho ho' hf hd hk hMM hw hwi
  rw [e'] at ho'
  have rev := outcome_reversed o1 o2 ho ho'
  rw [(polNorm_share te tm).1, (polNorm_share te tm).2] at rev
  -- the two pure polarisations are left as they are
  have sym1 : ∀ b, F1.Rg (f b) = F1.Rg b ∧ F1.Tg (f b) = F1.Tg b := by
    obtain ⟨w, hw, hwi⟩ := incident_turn (hs 1 0) hk0 hpos i1 (by rw [hkp, neg_zero]; exact i1) hf hd b0 hb0 hmid
    exact (outcome_carry o1 o1 hf hd hk hMM hw hwi).1
  have sym2 : ∀ b, F2.Rg (f b) = F2.Rg b ∧ F2.Tg (f b) = F2.Tg b := by
    obtain ⟨inc2', j2⟩ : ∃ inc', incident N 0 (-1) (sourceK er wl kp) = .ok inc' := by
      obtain ⟨a1, -, aTE, aTM, a3, -⟩ := incident_eq_ok.1 hi
      exact ⟨_, incident_eq_ok.2 ⟨a1, by simp [polNorm], aTE, aTM, a3, rfl⟩⟩
    obtain ⟨w, hw, hwi⟩ := incident_turn (hs 0 1) hk0 hpos i2 (by rw [hkp]; exact j2) hf hd b0 hb0 hmid
    have e2 := incident_mix j2 i1 i2
    have n2 : polNorm (0 : ℂ) (-1) = 1 := by simp [polNorm]
    have e3 : inc2 = (-1 : ℂ) • inc2' := by
      rw [e2, n2]; simp
    refine (outcome_carry o2 o2 hf hd hk hMM (w := -w) (by rw [norm_neg]; exact hw) ?_).1
    refine e3.trans ?_
    rw [hwi, smul_smul]
    simp
  have each : ∀ b, F.Rg b + F.Rg (f b) = 2 * (‖te‖ ^ 2 * F1.Rg b + ‖tm‖ ^ 2 * F2.Rg b) / (‖te‖ ^ 2 + ‖tm‖ ^ 2) ∧
      F.Tg b + F.Tg (f b) = 2 * (‖te‖ ^ 2 * F1.Tg b + ‖tm‖ ^ 2 * F2.Tg b) / (‖te‖ ^ 2 + ‖tm‖ ^ 2) := by
    intro b
    obtain ⟨r1, r2⟩ := rev (f b)
    rw [(q1 b).1, (sym1 b).1, (sym2 b).1] at r1
    rw [(q1 b).2, (sym1 b).2, (sym2 b).2] at r2
    constructor
    · rw [add_comm, r1]; ring
    · rw [add_comm, r2]; ring
  have bij : Function.Bijective f := Finite.injective_iff_bijective.1 hf
  have sums : ∀ g : Fin N → ℝ, ∑ b, g (f b) = ∑ b, g b := fun g => bij.sum_comp g
  refine ⟨each, ?_, ?_⟩
  · have e := Finset.sum_congr (rfl : (Finset.univ : Finset (Fin N)) = Finset.univ) fun b _ => (each b).1
    rw [Finset.sum_add_distrib, sums, ← Finset.sum_div, ← Finset.mul_sum, Finset.sum_add_distrib, ← Finset.mul_sum,
      ← Finset.mul_sum, ← ho.R, ← o1.R, ← o2.R, mul_div_assoc] at e
    linarith
  · have e := Finset.sum_congr (rfl : (Finset.univ : Finset (Fin N)) = Finset.univ) fun b _ => (each b).2
    rw [Finset.sum_add_distrib, sums, ← Finset.sum_div, ← Finset.mul_sum, Finset.sum_add_distrib, ← Finset.mul_sum,
      ← Finset.mul_sum, ← ho.T, ← o1.T, ← o2.T, mul_div_assoc] at e
    linarith

end

end Khepri
