import Verif.Lemmas.FieldsProfile

set_option linter.unusedSectionVars false

/-!
The fields of a device as a user sees them.
-/

namespace Khepri

open Matrix

variable {N : ℕ}

theorem permittivity_unique {jv1 : ℝ → ℝ} {e : Expansion N} {f : Form} {C C' : Matrix (Fin N) (Fin N) ℂ}
    (h : Permittivity jv1 e f C) (h' : Permittivity jv1 e f C') : C = C' := by
  cases f with
  | uniform eps => exact Eq.trans h (Eq.symm h')
  | fft pix => ext r c; rw [h r c, h' r c]
  | analytical islands host => exact Except.ok.inj (Eq.trans (Eq.symm h) h')
  | halfInc _ => exact h.elim
  | halfTrn _ => exact h.elim

theorem forall₂_get {α β : Type} {R : α → β → Prop} {l : List α} {l' : List β} (h : List.Forall₂ R l l') {i : ℕ}
    {a : α} {b : β} (ha : l[i]? = some a) (hb : l'[i]? = some b) : R a b := by
  obtain ⟨h1, rfl⟩ := List.getElem?_eq_some_iff.1 ha
  obtain ⟨h2, rfl⟩ := List.getElem?_eq_some_iff.1 hb
  exact (List.forall₂_iff_get.1 h).2 i h1 h2

theorem longitudinalAt {kx ky : Fin N → ℝ} {f : Fields6 N} {ic : ICVal N} {C : Matrix (Fin N) (Fin N) ℂ}
    (h : (f.sz, f.uz) = longitudinalFields f.sx f.sy f.ux f.uy (fun i => (kx i : ℂ)) (fun i => (ky i : ℂ)) ic)
    (hC : C.det ≠ 0 ∧ ((∃ x, ic = .num x ∧ C⁻¹ = x • 1) ∨ ic = .mat C⁻¹)) : LongitudinalAt kx ky C f := by
  obtain ⟨hd, hC⟩ := hC
  have hs := (Prod.mk.injEq _ _ _ _ ▸ h : _ ∧ _).1
  have hu := (Prod.mk.injEq _ _ _ _ ▸ h : _ ∧ _).2
  refine ⟨?_, hu⟩
  have key : f.sz = C⁻¹ *ᵥ fun i => -Complex.I * (kx i * f.uy i - ky i * f.ux i) := by
    rw [hs]
    rcases hC with ⟨x, rfl, hx⟩ | rfl
    · rw [hx]
      funext i
      simp only [smul_mulVec, one_mulVec, Pi.smul_apply, smul_eq_mul]
      ring
    · funext i
      simp only [mulVec, dotProduct, Finset.mul_sum]
      refine Finset.sum_congr rfl fun j _ => ?_
      ring
  rw [key, mulVec_mulVec, mul_nonsing_inv _ (isUnit_iff_ne_zero.2 hd), one_mulVec]

section
variable {lib : NumLib} {order : List String} {c c1 c2 c3 : Crystal N} {stack : List String}
  {m : Bool ⊕ List Bool} {Ls : List (Layer N)} {er et : ℝ} {wl : ℝ} {te tm : ℂ} {theta phi : ℝ}
  {kpo : Option (ℂ × ℂ)}

/-- Everything there is to say about the fields of one device. -/
theorem fields_core (he : EigContract (lib.eig N)) (hc : FreshDevice c stack m Ls er et)
    (h1 : c.setDevice stack m = .ok c1) (h2 : c1.setSource wl te tm theta phi kpo = .ok c2)
    (ho : SetOrder ("Sref" :: (stack ++ ["Strans"])) order) (h3 : c2.solve lib order = .ok c3)
    {src : Source} (hs : c2.source = some src) {kp : ℝ × ℝ} (hkp : src.kp = (↑kp.1, ↑kp.2))
    (hpos : ∀ l ∈ Ls, 0 ≤ l.depth) :
    er ≠ 0 ∧ et ≠ 0 ∧ (∀ E H, ∃ a b, outerField (orderKx c.expansion kp wl) (orderKy c.expansion kp wl) er ⟨a, b⟩ = ⟨E, H⟩) ∧
    ∃ Ms, LayerEquations lib.jv1 c.expansion (orderKx c.expansion kp wl) (orderKy c.expansion kp wl)
        (2 * Real.pi / wl) Ls Ms ∧
      ∀ a : Vec2 N, ∃ Φ, DeviceSolution (orderKx c.expansion kp wl) (orderKy c.expansion kp wl) er et
          (2 * Real.pi / wl) Ms (Ls.map Layer.depth) a Φ ∧
        (∀ Ψ, DeviceSolution (orderKx c.expansion kp wl) (orderKy c.expansion kp wl) er et
          (2 * Real.pi / wl) Ms (Ls.map Layer.depth) a Ψ → Ψ = Φ) ∧
        ∀ z, RequestedAt (Ls.map Layer.depth) (Crystal.maskList stack m) z → Unclamped c3 z → ∀ b E H,
          outerField (orderKx c.expansion kp wl) (orderKy c.expansion kp wl) er ⟨a, b⟩ = ⟨E, H⟩ →
          ∃ f, c3.fourierFields z E H = .ok f ∧ (z ≤ (Ls.map Layer.depth).sum → f.transverse = Φ z) ∧
            ((Ls.map Layer.depth).sum < z → ∀ t, Φ (Ls.map Layer.depth).sum =
              outerField (orderKx c.expansion kp wl) (orderKy c.expansion kp wl) et ⟨t, 0⟩ →
              (f.transverse = Φ z ↔ outerField (orderKx c.expansion kp wl) (orderKy c.expansion kp wl) 1 ⟨t, 0⟩ =
                outerField (orderKx c.expansion kp wl) (orderKy c.expansion kp wl) et ⟨t, 0⟩)) ∧
            ∀ C, PermittivityAt lib.jv1 c.expansion Ls er et z C →
              LongitudinalAt (orderKx c.expansion kp wl) (orderKy c.expansion kp wl) C f := by
  obtain ⟨lr, lt, Ls', k, hd, hL, hexp, -, -, hwl, hk, hsrc, hL'⟩ := fresh_standard hc h1 h2
  obtain ⟨src', kxc, kyc, W0, V0, rr, rs, rt, st, h⟩ := solvedDevice hd ho h3
  have hs' := h.source
  rw [hs, Option.some.injEq] at hs'
  subst hs'
  rw [hs, Option.some.injEq] at hsrc
  have hw : src.wavelength = wl := by rw [hsrc]
  obtain ⟨rfl, rfl⟩ := h.real hkp
  have hdep : Ls'.map Layer.depth = Ls.map Layer.depth := depths_congr hL
  have hpos' : ∀ l ∈ Ls', 0 ≤ l.depth := by
    intro l hl
    have := List.mem_map_of_mem (f := Layer.depth) hl
    rw [hdep] at this
    obtain ⟨l0, h0, h0'⟩ := List.mem_map.1 this
    rw [← h0']; exact hpos l0 h0
  have hlen : Ls'.length = rs.length := h.lay.length_eq
  have hlen' : stack.length = Ls'.length := by
    have := h.lay'.length_eq
    rw [List.length_zip, ← hlen, min_self] at this
    exact this
  have hml := hd.mask_len
  obtain ⟨Ms, hMs, hA⟩ := h.profile he hd hpos'
  rw [hw, hexp, hdep] at hA
  rw [hw, hexp] at hMs
  refine ⟨by have := h.er_ne; exact_mod_cast this, by have := h.et_ne; exact_mod_cast this, fun E H => ?_, Ms, layerEquations_congr hL hMs, fun a => ?_⟩
  · obtain ⟨-, -, -, hor⟩ := halfSpaceModes_outer h.ref_modes
    obtain ⟨hWr, hVr⟩ := halfSpaceModes_det h.er_ne h.ref_modes
    obtain ⟨⟨a, b⟩, hab⟩ := fieldOf_surjective hWr hVr ⟨E, H⟩
    refine ⟨a, b, ?_⟩
    rw [hab, hor, hw, hexp]
  obtain ⟨⟨Φ, hΦ⟩, hA⟩ := hA a
  obtain ⟨hU, hQ⟩ := hA Φ hΦ
  refine ⟨Φ, hΦ, hU, fun z hz hu b E H hE => ?_⟩
  have hd0 : ∀ d ∈ Ls.map Layer.depth, 0 ≤ d := by simpa using hpos
  obtain ⟨j, hj, hjm⟩ := fallsIn_requested hd0 (by rw [← hdep]; simp; omega) hz
  have hll : Ls'.length = Ls.length := hL.length_eq.symm
  have hjl : j ≤ Ls'.length + 1 := by have := hj.1; simp at this; omega
  obtain ⟨l, hl⟩ : ∃ l, (lr :: (Ls' ++ [lt]))[j]? = some l :=
    ⟨_, List.getElem?_eq_getElem (by simp; omega)⟩
  obtain ⟨r, hr⟩ : ∃ r, (rr :: (rs ++ [rt]))[j]? = some r :=
    ⟨_, List.getElem?_eq_getElem (by simp; omega)⟩
  have hf : l.fields = true := by
    cases j with
    | zero => simp only [List.getElem?_cons_zero, Option.some.injEq] at hl; rw [← hl]; exact hd.ref_fields
    | succ j =>
      rw [List.getElem?_cons_succ] at hl hjm
      rcases lt_or_ge j Ls'.length with hj' | hj'
      · rw [List.getElem?_append_left (by omega)] at hl hjm
        exact zipWith_fields hL' hl hjm
      · have e : j - Ls'.length = 0 := by omega
        rw [List.getElem?_append_right hj', e] at hl
        simp only [List.getElem?_cons_zero, Option.some.injEq] at hl
        rw [← hl]; exact hd.trans_fields
  have hloc := h.locate hd hpos' (z := z) (j := j) (by rw [hdep]; exact hj) hl hr
  have hun := hu _ _ _ src r.L hloc (by rw [h.rest']; exact hs) (by simp [AnyLayer.L, Layer.store, hf])
  rw [hw, hdep] at hun
  obtain ⟨f, f1, f2, f3, f4⟩ := hQ z j l r hj hl hr hf hjm hun b E H hE
  refine ⟨f, f1, fun hzD => f2 ?_, fun hzD => f3 ?_, fun C hC => ?_⟩
  · by_contra hcon
    have := hj.2.1 (Ls.map Layer.depth).length (by simp; omega)
    rw [startOf_length] at this
    linarith
  · by_contra hcon
    have h1 := hj.2.2 (by simp; omega)
    have h2 := startOf_mono hd0 (show j ≤ (Ls.map Layer.depth).length by simp; omega)
    rw [startOf_length] at h2
    linarith
  · refine longitudinalAt f4 ?_
    have her : (er : ℂ) ≠ 0 := h.er_ne
    have het : (et : ℂ) ≠ 0 := h.et_ne
    have hmono := startOf_mono hd0
    have hdl : (Ls.map Layer.depth).length = Ls.length := by simp
    have hj1 := hj.1
    rcases hC with ⟨hz0, rfl⟩ | ⟨hzD, rfl⟩ | ⟨i, l0, hi, hlo, hhi, hP⟩
    · have : j = 0 := by
        by_contra hcon
        have := hj.2.1 0 (by omega)
        rw [startOf_zero] at this; linarith
      subst this
      simp only [List.getElem?_cons_zero, Option.some.injEq] at hr
      rw [← hr, h.ref_ic]
      refine ⟨(smul_one_det her), .inl ⟨_, rfl, ?_⟩⟩
      rw [smul_one_inv (by assumption), one_div]
    · have : j = Ls'.length + 1 := by
        by_contra hcon
        have h1 := hj.2.2 (by omega)
        have h2 := hmono (show j ≤ (Ls.map Layer.depth).length by omega)
        rw [startOf_length] at h2; linarith
      subst this
      rw [List.getElem?_cons_succ, List.getElem?_append_right hlen.ge, hlen, Nat.sub_self] at hr
      simp only [List.getElem?_cons_zero, Option.some.injEq] at hr
      rw [← hr, h.trans_ic]
      refine ⟨(smul_one_det het), .inl ⟨_, rfl, ?_⟩⟩
      rw [smul_one_inv (by assumption), one_div]
    · have hi' := (List.getElem?_eq_some_iff.1 hi).1
      have : j = i + 1 := by
        rcases lt_trichotomy j (i + 1) with hlt | heq | hgt
        · have h1 := hj.2.2 (by omega)
          have h2 := hmono (show j ≤ i by omega)
          linarith
        · exact heq
        · have := hj.2.1 (i + 1) hgt; linarith
      subst this
      rw [List.getElem?_cons_succ, List.getElem?_append_left (by omega)] at hr hl
      obtain ⟨C', p1, p2, -, p4⟩ := (forall₂_get h.lay hl hr).perm
      have hform := (forall₂_get hL hi hl).1
      rw [hform, hexp] at p1
      obtain rfl := permittivity_unique hP p1
      exact ⟨p2, p4⟩

end

end Khepri
