import Verif.Lemmas.EmbedTwisted
import Verif.Spec.Mirror

set_option linter.unusedSectionVars false

/-!
Two plain devices, one of which has, turned, the orders of the other.
-/

namespace Khepri

open Matrix

section
variable {N n : ℕ}

/-- The fluxes of a device whose orders are, turned, some of the orders of another device. -/
theorem device_carry {lib : NumLib} {c c3 : Crystal n} {c' c3' : Crystal N} {stack stack' : List String}
    {m m' : Bool ⊕ List Bool} {Ls : List (Layer n)} {Ls' : List (Layer N)} {er et wl : ℝ} {te tm te' tm' : ℂ}
    {theta phi theta' phi' : ℝ} {kpo kpo' : Option (ℂ × ℂ)} {kp kp' : R2} (he : EigContract (lib.eig n))
    (he' : EigContract (lib.eig N)) (h : DeviceRun lib c stack m Ls er et wl te tm theta phi kpo kp c3)
    (h' : DeviceRun lib c' stack' m' Ls' er et wl te' tm' theta' phi' kpo' kp' c3') (hwl : 0 < wl)
    {F : Crystal.Fluxes n} {F' : Crystal.Fluxes N} (hF : c3.poyntingFluxEnd = .ok F) (hF' : c3'.poyntingFluxEnd = .ok F')
    {f : Fin n → Fin N} {d : Fin n → ℂ} {o : Turn} (hf : Function.Injective f) (hd : ∀ b, ‖d b‖ = 1)
    (hg : ∀ b, c'.expansion.g (f b) = o.app (c.expansion.g b)) (hkp : kp' = o.app kp)
    (hL : List.Forall₂ (fun l l' => l'.depth = l.depth ∧ ∀ C C', Permittivity lib.jv1 c.expansion l.form C →
      Permittivity lib.jv1 c'.expansion l'.form C' → C' * embedMat f d = embedMat f d * C) Ls Ls')
    (hinc : ∀ inc inc', 0 < er - (kp.1 / (2 * Real.pi / wl)) ^ 2 - (kp.2 / (2 * Real.pi / wl)) ^ 2 →
      incident n te tm ⟨kp.1, kp.2, star (csqrt (((2 * Real.pi / wl : ℝ) : ℂ) ^ 2 * er - (kp.1 : ℂ) ^ 2 - (kp.2 : ℂ) ^ 2))⟩ = .ok inc →
      incident N te' tm' ⟨kp'.1, kp'.2, star (csqrt (((2 * Real.pi / wl : ℝ) : ℂ) ^ 2 * er - (kp'.1 : ℂ) ^ 2 - (kp'.2 : ℂ) ^ 2))⟩ = .ok inc' →
      ∃ w : ℂ, ‖w‖ = 1 ∧ inc' = w • (carryMat f d o *ᵥ inc)) :
    (∀ b, F'.Rg (f b) = F.Rg b ∧ F'.Tg (f b) = F.Tg b) ∧ (∀ x, (∀ b, x ≠ f b) → F'.Rg x = 0 ∧ F'.Tg x = 0) ∧
      F'.R = F.R ∧ F'.T = F.T := by
  obtain ⟨st, Ms, inc, -, hM, hi, hpos, ho⟩ := h.outcome he hwl hF
  obtain ⟨st', Ms', inc', -, hM', hi', -, ho'⟩ := h'.outcome he' hwl hF'
  obtain ⟨w, hw, hinc⟩ := hinc inc inc' hpos hi hi'
  have hk : ∀ b, (orderKx c'.expansion kp' wl (f b), orderKy c'.expansion kp' wl (f b)) =
      o.app (orderKx c.expansion kp wl b, orderKy c.expansion kp wl b) := by
    intro b
    simp only [orderKx, orderKy, hg, hkp, Turn.app, Prod.mk.injEq]
    constructor <;> ring
  have hx : er - (kp'.1 / (2 * Real.pi / wl)) ^ 2 - (kp'.2 / (2 * Real.pi / wl)) ^ 2 =
      er - (kp.1 / (2 * Real.pi / wl)) ^ 2 - (kp.2 / (2 * Real.pi / wl)) ^ 2 := by
    have := o.norm_app kp
    rw [← hkp] at this
    simp only [div_pow]
    rw [sub_sub, sub_sub, ← add_div, this, add_div]
  rw [hx] at ho'
  refine outcome_carry ho ho' hf hd hk ?_ hw hinc
  unfold LayerEquations at hM hM'
  clear ho ho' h h'
  induction hL generalizing Ms Ms' with
  | nil => cases hM; cases hM'; exact .nil
  | cons h1 _ ih =>
    cases hM with
    | cons a b =>
      cases hM' with
      | cons a' b' =>
        obtain ⟨C, hC, hdt, rfl⟩ := a
        obtain ⟨C', hC', hdt', rfl⟩ := a'
        obtain ⟨e1, e2⟩ := carry_layer hk hdt hdt' (h1.2 C C' hC hC')
        exact .cons ⟨e1, e2, by simp only; rw [h1.1]⟩ (ih _ b _ b')

/-- The components of a turned polarisation. -/
theorem polNorm_turn (o : Turn) (te tm w : ℂ) (hw : ‖w‖ = 1) :
    polNorm (w * (o.c * te - o.e * o.s * tm)) (w * (o.s * te + o.e * o.c * tm)) = polNorm te tm := by
  unfold polNorm
  have hu := o.unit
  have hs := o.sign
  congr 1
  simp only [norm_mul, hw, one_mul]
  simp only [normSq_re_im, Complex.sub_re, Complex.sub_im, Complex.add_re, Complex.add_im, Complex.mul_re,
    Complex.mul_im, Complex.ofReal_re, Complex.ofReal_im, zero_mul, sub_zero, add_zero, mul_zero]
  linear_combination (te.re ^ 2 + te.im ^ 2 + o.e ^ 2 * (tm.re ^ 2 + tm.im ^ 2)) * hu + (tm.re ^ 2 + tm.im ^ 2) * hs

theorem Turn.norm_e (o : Turn) : ‖(o.e : ℂ)‖ = 1 := by
  have h := congrArg norm o.signC
  rw [norm_pow, norm_one] at h
  nlinarith [norm_nonneg (o.e : ℂ)]

/-- The turned incident wave, the middle order of a device being the image of the middle order of the other. -/
theorem incident_turn {te tm te' tm' : ℂ} {kp : R2} {er k0 : ℝ} {o : Turn} (hs : SourceTurned o kp te tm te' tm')
    (hk0 : 0 < k0) (hpos : 0 < er - (kp.1 / k0) ^ 2 - (kp.2 / k0) ^ 2) {inc : Vec2 n} {inc' : Vec2 N}
    (hi : incident n te tm ⟨kp.1, kp.2, star (csqrt ((k0 : ℂ) ^ 2 * er - (kp.1 : ℂ) ^ 2 - (kp.2 : ℂ) ^ 2))⟩ = .ok inc)
    (hi' : incident N te' tm' ⟨(o.app kp).1, (o.app kp).2,
      star (csqrt ((k0 : ℂ) ^ 2 * er - ((o.app kp).1 : ℂ) ^ 2 - ((o.app kp).2 : ℂ) ^ 2))⟩ = .ok inc')
    {f : Fin n → Fin N} {d : Fin n → ℂ} (hf : Function.Injective f) (hd : ∀ b, ‖d b‖ = 1) (b0 : Fin n)
    (hb0 : (b0 : ℕ) = (n - 1) / 2) (hmid : ((f b0 : Fin N) : ℕ) = (N - 1) / 2) :
    ∃ w : ℂ, ‖w‖ = 1 ∧ inc' = w • (carryMat f d o *ᵥ inc) := by
  have hd0 : d b0 ≠ 0 := norm_ne_zero_iff.1 (by rw [hd]; norm_num)
  have hput : ∀ (u v : ℂ) (w : ℂ), inc = Sum.elim (fun i : Fin n => (if (i : ℕ) = (n - 1) / 2 then 1 else 0) * u)
      (fun i : Fin n => (if (i : ℕ) = (n - 1) / 2 then 1 else 0) * v) →
      inc' = Sum.elim (fun i : Fin N => (if (i : ℕ) = (N - 1) / 2 then 1 else 0) * (w * (o.c * u - o.e * o.s * v)))
      (fun i : Fin N => (if (i : ℕ) = (N - 1) / 2 then 1 else 0) * (w * (o.s * u + o.e * o.c * v))) →
      inc' = (w * (d b0)⁻¹) • (carryMat f d o *ᵥ inc) := by
    intro u v w h1 h2
    have hb : ∀ b : Fin n, (b : ℕ) = (n - 1) / 2 ↔ b = b0 := fun b => by rw [← hb0]; exact Fin.ext_iff.symm
    have hx : ∀ x : Fin N, (x : ℕ) = (N - 1) / 2 ↔ x = f b0 := fun x => by rw [← hmid]; exact Fin.ext_iff.symm
    rw [h2]
    funext j
    rcases j with x | x
    · by_cases hx' : ∃ b, x = f b
      · obtain ⟨b, rfl⟩ := hx'
        rw [Pi.smul_apply, (carryMat_on hf _ b).1, h1]
        simp only [Sum.elim_inl, Sum.elim_inr, hb, hx, hf.eq_iff, smul_eq_mul]
        split
        · next e => rw [e]; field_simp
        · simp
      · have hx'' : ∀ b, x ≠ f b := fun b hb => hx' ⟨b, hb⟩
        rw [Pi.smul_apply, (carryMat_off hx'' _).1]
        simp [hx, hx'']
    · by_cases hx' : ∃ b, x = f b
      · obtain ⟨b, rfl⟩ := hx'
        rw [Pi.smul_apply, (carryMat_on hf _ b).2, h1]
        simp only [Sum.elim_inl, Sum.elim_inr, hb, hx, hf.eq_iff, smul_eq_mul]
        split
        · next e => rw [e]; field_simp
        · simp
      · have hx'' : ∀ b, x ≠ f b := fun b hb => hx' ⟨b, hb⟩
        rw [Pi.smul_apply, (carryMat_off hx'' _).2]
        simp [hx, hx'']
  have hw0 : ∀ w : ℂ, ‖w‖ = 1 → ‖w * (d b0)⁻¹‖ = 1 := fun w hw => by rw [norm_mul, norm_inv, hd, hw]; norm_num
  have hno := o.norm_app kp
  have q : ((o.app kp).1 / k0) ^ 2 + ((o.app kp).2 / k0) ^ 2 = (kp.1 / k0) ^ 2 + (kp.2 / k0) ^ 2 := by
    rw [div_pow, div_pow, div_pow, div_pow, ← add_div, hno, add_div]
  have q' : er - ((o.app kp).1 / k0) ^ 2 - ((o.app kp).2 / k0) ^ 2 = er - (kp.1 / k0) ^ 2 - (kp.2 / k0) ^ 2 := by linarith
  obtain ⟨w, hw, ⟨rfl, rfl, rfl⟩ | ⟨hob, rfl, rfl⟩⟩ := hs
  · have d1 := incident_direction hk0 hpos hi (.inl ⟨rfl, rfl⟩)
    have d2 := incident_direction hk0 (by rw [q']; exact hpos) hi' (.inl ⟨by simp [Turn.app], by simp [Turn.app]⟩)
    rcases d1 with ⟨-, -, d1⟩ | ⟨ht, -⟩
    · rcases d2 with ⟨-, -, d2⟩ | ⟨ht, -⟩
      · refine ⟨_, hw0 w hw, hput _ _ w d1 ?_⟩
        rw [d2, polNorm_turn o te tm w hw]
        congr 1 <;> funext i <;> ring
      · simp [Turn.app] at ht
    · simp at ht
  · have d1 := incident_direction hk0 hpos hi (.inr hob)
    have d2 := incident_direction hk0 (by rw [q']; exact hpos) hi' (.inr (by rw [hno]; exact hob))
    simp only [q, q'] at d1 d2
    have hne : 0 < Real.sqrt ((kp.1 / k0) ^ 2 + (kp.2 / k0) ^ 2) := by
      refine Real.sqrt_pos.2 ?_
      rw [div_pow, div_pow, ← add_div]
      have : 0 < kp.1 ^ 2 + kp.2 ^ 2 := lt_of_lt_of_le (by positivity) hob
      positivity
    rcases d1 with ⟨z1, z2, -⟩ | ⟨ht, d1⟩
    · rw [z1, z2] at hne
      simp at hne
    rcases d2 with ⟨z1, z2, -⟩ | ⟨-, d2⟩
    · rw [← q, z1, z2] at hne
      simp at hne
    have hn : polNorm (w * te) (w * (o.e * tm)) = polNorm te tm := by
      unfold polNorm
      rw [norm_mul, norm_mul, norm_mul, hw, o.norm_e]
      simp
    refine ⟨_, hw0 (w * o.e) (by rw [norm_mul, hw, o.norm_e, one_mul]), hput _ _ _ d1 ?_⟩
    rw [d2, hn]
    have hss := o.signC
    simp only [Turn.app]
    congr 1 <;> funext i <;> push_cast
    · linear_combination ((if (i : ℕ) = (N - 1) / 2 then 1 else 0) * w * te * (polNorm te tm : ℂ)⁻¹ * kp.1 * (k0 : ℂ)⁻¹ *
        ((Real.sqrt ((kp.1 / k0) ^ 2 + (kp.2 / k0) ^ 2) : ℝ) : ℂ)⁻¹) * o.s * hss
    · linear_combination -((if (i : ℕ) = (N - 1) / 2 then 1 else 0) * w * te * (polNorm te tm : ℂ)⁻¹ * kp.1 * (k0 : ℂ)⁻¹ *
        ((Real.sqrt ((kp.1 / k0) ^ 2 + (kp.2 / k0) ^ 2) : ℝ) : ℂ)⁻¹) * o.c * hss

/-- The positions of the orders. -/
theorem orderPos_inj {P Q : ℕ} {r r' : Fin P} {s s' : Fin Q} : orderPos r s = orderPos r' s' ↔ r = r' ∧ s = s' := by
  constructor
  · intro h
    have hr := r.2
    have hr' := r'.2
    have h1 : (r : ℕ) + P * s = r' + P * s' := congrArg Fin.val h
    have h2 : ((r : ℕ) + P * s) % P = (r' + P * s') % P := by rw [h1]
    rw [Nat.add_mul_mod_self_left, Nat.add_mul_mod_self_left, Nat.mod_eq_of_lt hr, Nat.mod_eq_of_lt hr'] at h2
    have h3 : P * (s : ℕ) = P * s' := by omega
    exact ⟨Fin.ext h2, Fin.ext (Nat.eq_of_mul_eq_mul_left (by omega) h3)⟩
  · rintro ⟨rfl, rfl⟩; rfl

theorem orderPos_mod {P Q : ℕ} (r : Fin P) (s : Fin Q) : ((orderPos r s : Fin (P * Q)) : ℕ) % P = r := by
  rw [orderPos, Nat.add_mul_mod_self_left, Nat.mod_eq_of_lt r.2]

theorem orderPos_div {P Q : ℕ} (r : Fin P) (s : Fin Q) : ((orderPos r s : Fin (P * Q)) : ℕ) / P = s := by
  have := r.2
  rw [orderPos, Nat.add_mul_div_left _ _ (by omega), Nat.div_eq_of_lt r.2, zero_add]

theorem exists_orderPos {P Q : ℕ} (x : Fin (P * Q)) : ∃ r s, x = orderPos r s := by
  have hx := x.2
  have hP : 0 < P := by
    rcases Nat.eq_zero_or_pos P with h | h
    · subst h; simp at hx
    · exact h
  exact ⟨⟨x % P, Nat.mod_lt _ hP⟩, ⟨x / P, Nat.div_lt_of_lt_mul hx⟩, Fin.ext (Nat.mod_add_div _ _).symm⟩

theorem orderPos_mid {P Q : ℕ} (hP : P % 2 = 1) (hQ : Q % 2 = 1) {r : Fin P} {s : Fin Q} :
    ((orderPos r s : Fin (P * Q)) : ℕ) = (P * Q - 1) / 2 ↔ (r : ℕ) = (P - 1) / 2 ∧ (s : ℕ) = (Q - 1) / 2 := by
  have e : (P * Q - 1) / 2 = (P - 1) / 2 + P * ((Q - 1) / 2) := by
    obtain ⟨p, rfl⟩ : ∃ p, P = 2 * p + 1 := ⟨P / 2, by omega⟩
    obtain ⟨q, rfl⟩ : ∃ q, Q = 2 * q + 1 := ⟨Q / 2, by omega⟩
    rw [show (2 * q + 1 - 1) / 2 = q by omega, show (2 * p + 1 - 1) / 2 = p by omega,
      show (2 * p + 1) * (2 * q + 1) - 1 = 2 * (p + (2 * p + 1) * q) by
        have : (2 * p + 1) * (2 * q + 1) = 2 * (p + (2 * p + 1) * q) + 1 := by ring
        omega]
    omega
  have h0 : (P - 1) / 2 < P := by omega
  have h1 : (Q - 1) / 2 < Q := by omega
  rw [e]
  have : orderPos r s = orderPos ⟨(P - 1) / 2, h0⟩ ⟨(Q - 1) / 2, h1⟩ ↔ _ := orderPos_inj
  rw [Fin.ext_iff, Fin.ext_iff, Fin.ext_iff] at this
  exact this

/-- The orders of an expansion that was built. -/
theorem make_order {tag : ℕ} {pw : ℕ × ℕ} {lat : R2 × R2} {e : Expansion (pw.1 * pw.2)}
    (h : Expansion.make tag pw lat = .ok e) : pw.1 % 2 = 1 ∧ pw.2 % 2 = 1 ∧ e.pw = pw ∧
      reciproc lat.1 lat.2 = .ok e.reciprocal ∧ ∀ (r : Fin pw.1) (s : Fin pw.2),
        e.g (orderPos r s) = latticeVec e.reciprocal (((r : ℕ) : ℤ) - ((pw.1 - 1) / 2 : ℕ), ((s : ℕ) : ℤ) - ((pw.2 - 1) / 2 : ℕ)) := by
  obtain ⟨h1, h2, b, hb, rfl⟩ := make_eq_ok.1 h
  refine ⟨h1, h2, rfl, hb, fun r s => ?_⟩
  simp only [orderAt, orderPos_mod, orderPos_div]

end

end Khepri
