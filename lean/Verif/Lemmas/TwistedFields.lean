import Verif.Lemmas.Twisted
import Verif.Lemmas.AnyProfile

set_option linter.unusedSectionVars false

/-!
The fields of a stack of layers of two lattices.
-/

namespace Khepri

open Matrix

variable {M : ℕ}

section
variable {lib : NumLib} {order : List String} {tag : ℕ} {lhs rhs : Expansion M} {se : SumExpansion M}
  {c c1 c2 c3 : Crystal (M * M)} {stack : List String} {m : Bool ⊕ List Bool} {Ls : List (TwistedLayer M)} {er et : ℝ}
  {wl : ℝ} {te tm : ℂ} {theta phi : ℝ} {kpo : Option (ℂ × ℂ)}

theorem requested_of_mask {stack : List String} {fm : List Bool} {i : ℕ} {x : String} (hs : stack[i]? = some x)
    (hm : fm[i]? = some true) : Crystal.requested x (stack.zip fm) = true := by
  rw [Crystal.requested, List.any_eq_true]
  refine ⟨(x, true), ?_, by simp⟩
  refine List.mem_of_getElem? (i := i) ?_
  rw [List.getElem?_zip_eq_some]
  exact ⟨hs, hm⟩

/-- Everything there is to say about the fields of one twisted stack. -/
theorem twisted_fields (he : ∀ n, EigContract (lib.eig n)) (hse : lhs.add tag rhs = .ok se)
    (hc : TwistedDevice se c stack m Ls er et)
    (h1 : c.setDevice stack m = .ok c1) (h2 : c1.setSource wl te tm theta phi kpo = .ok c2)
    (ho : SetOrder ("Sref" :: (stack ++ ["Strans"])) order) (h3 : c2.solve lib order = .ok c3)
    {src : Source} (hs : c2.source = some src) {kp : ℝ × ℝ} (hkp : src.kp = (↑kp.1, ↑kp.2))
    (hpos : ∀ l ∈ Ls, 0 ≤ l.depth) :
    er ≠ 0 ∧ et ≠ 0 ∧
    (∀ E H, ∃ a b, outerField (orderKx se.exp kp wl) (orderKy se.exp kp wl) er ⟨a, b⟩ = ⟨E, H⟩) ∧
    ∃ Ms, TwistedEquations lib.jv1 lhs rhs (orderKx se.exp kp wl) (orderKy se.exp kp wl) (2 * Real.pi / wl) Ls Ms ∧
      ∀ a : Vec2 (M * M), ∃ Φ, DeviceSolution (orderKx se.exp kp wl) (orderKy se.exp kp wl) er et
          (2 * Real.pi / wl) Ms (Ls.map TwistedLayer.depth) a Φ ∧
        (∀ Ψ, DeviceSolution (orderKx se.exp kp wl) (orderKy se.exp kp wl) er et
          (2 * Real.pi / wl) Ms (Ls.map TwistedLayer.depth) a Ψ → Ψ = Φ) ∧
        ∀ z, RequestedAt (Ls.map TwistedLayer.depth) (Crystal.maskList stack m) z → Unclamped c3 z → ∀ b E H,
          outerField (orderKx se.exp kp wl) (orderKy se.exp kp wl) er ⟨a, b⟩ = ⟨E, H⟩ →
          ∃ f, c3.fourierFields z E H = .ok f ∧ (z ≤ (Ls.map TwistedLayer.depth).sum → f.transverse = Φ z) ∧
            ((Ls.map TwistedLayer.depth).sum < z → ∀ t, Φ (Ls.map TwistedLayer.depth).sum =
              outerField (orderKx se.exp kp wl) (orderKy se.exp kp wl) et ⟨t, 0⟩ →
              (f.transverse = Φ z ↔ outerField (orderKx se.exp kp wl) (orderKy se.exp kp wl) 1 ⟨t, 0⟩ =
                outerField (orderKx se.exp kp wl) (orderKy se.exp kp wl) et ⟨t, 0⟩)) ∧
            ∃ ic, (f.sz, f.uz) = longitudinalFields f.sx f.sy f.ux f.uy
                (fun i => (orderKx se.exp kp wl i : ℂ)) (fun i => (orderKy se.exp kp wl i : ℂ)) ic ∧
              (z ≤ 0 → ic = .num (1 / er)) ∧ ((Ls.map TwistedLayer.depth).sum < z → ic = .num (1 / et)) ∧
              ∀ i l, Ls[i]? = some l → startOf (Ls.map TwistedLayer.depth) i < z →
                z ≤ startOf (Ls.map TwistedLayer.depth) (i + 1) → ic = l.keptIC := by
  obtain ⟨lr, lt, As, k, hAs, hd, hexp, hi, hie, hsrc⟩ := twisted_device hc h1 h2
  obtain ⟨src', kxc, kyc, W0, V0, rr, As', Ss, rt, st, h⟩ := anySolved hd ho h3
  have hs' := h.source
  rw [hs, Option.some.injEq] at hs'
  subst hs'
  rw [hs, Option.some.injEq] at hsrc
  have hw : src.wavelength = wl := by rw [hsrc]
  obtain ⟨rfl, rfl⟩ := h.real hkp
  rw [hw, hexp] at h
  obtain ⟨kz, hkv⟩ := h.kv
  rw [hexp, hw] at hkv
  obtain ⟨-, -, hsl, hsr, -⟩ := add_eq_ok hse
  obtain ⟨In, Ms, i1, i2, i3, i4, i5, i6, i7, i8⟩ := twisted_chain he hse (by rw [← hsl, ← hsr]; exact hc.two)
    hc.space hkv h.gap _ hc.layers hAs (by simpa only [hw] using h.lay) h.scat
  set ds := Ls.map TwistedLayer.depth with hds
  have hD : List.Forall₂ (fun (M' : Mat2 (M * M) × Mat2 (M * M) × ℝ) d => M'.2.2 = d * (2 * Real.pi / wl)) Ms ds := by
    rw [hds, List.forall₂_map_right_iff]
    refine List.Forall₂.flip (i2.imp ?_)
    rintro l X ⟨C, -, -, rfl⟩
    rfl
  have hd0 : ∀ d ∈ ds, 0 ≤ d := by simpa [hds] using hpos
  have hprof := h.profile hd (by rw [hw]; exact i1) i4 (by rw [hw]; exact hD) i5 i6 hd0
  rw [hw] at hprof
  obtain ⟨-, -, -, hor⟩ := halfSpaceModes_outer h.ref_modes
  obtain ⟨hWr, hVr⟩ := halfSpaceModes_det h.er_ne h.ref_modes
  obtain ⟨hlen', hSsl, hml⟩ := h.lengths hd
  have hAl : As'.length = ds.length := by rw [← i6]; simp
  have hInl : In.length = ds.length := by rw [← i5]; simp
  have hLl : Ls.length = ds.length := by rw [hds]; simp
  have her : er ≠ 0 := by have := h.er_ne; exact_mod_cast this
  have het : et ≠ 0 := by have := h.et_ne; exact_mod_cast this
  refine ⟨her, het, fun E H => ?_, Ms, i2, fun a => ?_⟩
  · obtain ⟨⟨a, b⟩, hab⟩ := fieldOf_surjective hWr hVr ⟨E, H⟩
    refine ⟨a, b, ?_⟩
    rw [hab, hor]
  obtain ⟨⟨Φ, hΦ⟩, hA⟩ := hprof a
  obtain ⟨hU, hQ⟩ := hA Φ hΦ
  refine ⟨Φ, hΦ, hU, fun z hz hu b E H hE => ?_⟩
  have hmono := startOf_mono hd0
  obtain ⟨j, hj, hjm⟩ := fallsIn_requested hd0 (by omega) hz
  have hj1 := hj.1
  obtain ⟨A, hA⟩ : ∃ A, (AnyLayer.plain (lr.store rr) :: (As' ++ [.plain (lt.store rt)]))[j]? = some A :=
    ⟨_, List.getElem?_eq_getElem (by simp; omega)⟩
  -- which layer, and what it keeps
  have hkept : ∃ (L : LayerIn (Fin (M * M) ⊕ Fin (M * M))) (ic : ICVal (M * M)),
      (⟨rr.W, rr.V, rr.L, 0⟩ :: (In ++ [⟨rt.W, rt.V, rt.L, 0⟩]))[j]? = some L ∧
      Kept (fun i => (orderKx se.exp kp wl i : ℂ)) (fun i => (orderKy se.exp kp wl i : ℂ)) W0 V0 A L ic ∧
      (j = 0 → ic = .num (1 / er)) ∧ (j = ds.length + 1 → ic = .num (1 / et)) ∧
      ∀ i l, j = i + 1 → Ls[i]? = some l → ic = l.keptIC := by
    cases j with
    | zero =>
      simp only [List.getElem?_cons_zero, Option.some.injEq] at hA
      subst hA
      have := kept_plain (l := lr) (r := rr) hd.ref_fields h.gap
      rw [hd.ref_depth, h.ref_ic] at this
      exact ⟨_, _, rfl, this, fun _ => rfl, fun hh => by omega, fun i l hh => by omega⟩
    | succ i =>
      rw [List.getElem?_cons_succ] at hA hjm
      simp only [List.getElem?_cons_succ]
      rcases lt_or_ge i ds.length with hi' | hi'
      · rw [List.getElem?_append_left (by omega)] at hA hjm
        obtain ⟨x, hx⟩ : ∃ x, stack[i]? = some x := ⟨_, List.getElem?_eq_getElem (by omega)⟩
        obtain ⟨L, hL⟩ : ∃ L, In[i]? = some L := ⟨_, List.getElem?_eq_getElem (by omega)⟩
        obtain ⟨l, hl⟩ : ∃ l, Ls[i]? = some l := ⟨_, List.getElem?_eq_getElem (by omega)⟩
        have hfl := forall₂_get i7 hx hA (requested_of_mask hx hjm)
        have hz' : (In.zip (Ls.map TwistedLayer.keptIC))[i]? = some (L, l.keptIC) := by
          rw [List.getElem?_zip_eq_some]
          exact ⟨hL, by rw [List.getElem?_map, hl]; rfl⟩
        have := forall₂_get i8 hA hz' hfl
        refine ⟨L, l.keptIC, by rw [List.getElem?_append_left (by omega), hL], this, fun hh => by omega,
          fun hh => by omega, fun i' l' hh hl' => ?_⟩
        obtain rfl : i = i' := by omega
        rw [hl, Option.some.injEq] at hl'
        rw [hl']
      · have e : i = ds.length := by omega
        subst e
        rw [List.getElem?_append_right (by omega), hAl, Nat.sub_self] at hA
        simp only [List.getElem?_cons_zero, Option.some.injEq] at hA
        subst hA
        have := kept_plain (l := lt) (r := rt) hd.trans_fields h.gap
        rw [hd.trans_depth, h.trans_ic] at this
        refine ⟨_, _, by rw [List.getElem?_append_right (by omega), hInl, Nat.sub_self]; rfl, this,
          fun hh => by omega, fun _ => rfl, fun i l hh hl => ?_⟩
        have := (List.getElem?_eq_some_iff.1 hl).1
        omega
  obtain ⟨L, ic, hL, hK, k1, k2, k3⟩ := hkept
  have hloc := h.locate hd i6 hd0 hj hA
  have hun := hu _ _ _ src L.lam hloc (by rw [h.rest']; exact hs) hK.lam
  rw [hw, hK.thick] at hun
  obtain ⟨f, f1, f2, f3, f4⟩ := hQ z j A L ic hj hA hL hK hjm hun b E H hE
  refine ⟨f, f1, fun hzD => f2 ?_, fun hzD => f3 ?_, ic, f4, fun hz0 => k1 ?_, fun hzD => k2 ?_,
    fun i l hi' hlo hhi => k3 i l ?_ hi'⟩
  · by_contra hcon
    have := hj.2.1 ds.length (by omega)
    rw [startOf_length] at this
    linarith
  · by_contra hcon
    have h1 := hj.2.2 (by omega)
    have h2 := hmono (show j ≤ ds.length by omega)
    rw [startOf_length] at h2
    linarith
  · by_contra hcon
    have := hj.2.1 0 (by omega)
    rw [startOf_zero] at this; linarith
  · by_contra hcon
    have h1 := hj.2.2 (by omega)
    have h2 := hmono (show j ≤ ds.length by omega)
    rw [startOf_length] at h2; linarith
  · have hi2 := (List.getElem?_eq_some_iff.1 hi').1
    rcases lt_trichotomy j (i + 1) with hlt | heq | hgt
    · have h1 := hj.2.2 (by omega)
      have h2 := hmono (show j ≤ i by omega)
      linarith
    · exact heq
    · have := hj.2.1 (i + 1) hgt; linarith

end

end Khepri
