import Verif.Lemmas.TwistedFields

set_option linter.unusedSectionVars false

/-!
Queries for the fields of a stack of layers of two lattices are answered, clamped or not.
-/

namespace Khepri

open Matrix

variable {M : ℕ}

section
variable {lib : NumLib} {order : List String} {tag : ℕ} {lhs rhs : Expansion M} {se : SumExpansion M}
  {c c1 c2 c3 : Crystal (M * M)} {stack : List String} {m : Bool ⊕ List Bool} {Ls : List (TwistedLayer M)} {er et : ℂ}
  {wl : ℝ} {te tm : ℂ} {theta phi : ℝ} {kpo : Option (ℂ × ℂ)}

theorem twisted_query (he : ∀ n, EigContract (lib.eig n)) (hse : lhs.add tag rhs = .ok se)
    (hc : TwistedDevice se c stack m Ls er et)
    (h1 : c.setDevice stack m = .ok c1) (h2 : c1.setSource wl te tm theta phi kpo = .ok c2)
    (ho : SetOrder ("Sref" :: (stack ++ ["Strans"])) order) (h3 : c2.solve lib order = .ok c3)
    (hpos : ∀ l ∈ Ls, 0 ≤ l.depth) {z : ℝ}
    (hz : RequestedAt (Ls.map TwistedLayer.depth) (Crystal.maskList stack m) z) (E H : Vec2 (M * M)) :
    (∃ f, c3.fourierFields z E H = .ok f) ∧
    ∀ (x y : ℝ) (kp : Option (ℂ × ℂ)), ∃ f, c3.fieldsAt x y z (some (E, H)) kp = .ok f := by
  obtain ⟨lr, lt, As, k, hAs, hd, hexp, hi, hie, hsrc⟩ := twisted_device hc h1 h2
  obtain ⟨src, kx, ky, W0, V0, rr, As', Ss, rt, st, h⟩ := anySolved hd ho h3
  have hs' := h.source
  have hsrc' := hsrc
  rw [h.source, Option.some.injEq] at hsrc
  have hw : src.wavelength = wl := by rw [hsrc]
  obtain ⟨kz, hkv⟩ := h.kv
  have hkv0 := hkv
  rw [hexp, hw] at hkv
  obtain ⟨-, -, hsl, hsr, -⟩ := add_eq_ok hse
  obtain ⟨In, Ms, i1, i2, i3, i4, i5, i6, i7, i8⟩ := twisted_chain he hse (by rw [← hsl, ← hsr]; exact hc.two)
    hc.space hkv h.gap _ hc.layers hAs (by simpa only [hw] using h.lay) h.scat
  set ds := Ls.map TwistedLayer.depth with hds
  have hd0 : ∀ d ∈ ds, 0 ≤ d := by simpa [hds] using hpos
  obtain ⟨hWr, hVr⟩ := halfSpaceModes_det h.er_ne h.ref_modes
  obtain ⟨hWt, hVt⟩ := halfSpaceModes_det h.et_ne h.trans_modes
  obtain ⟨hlen', hSsl, hml⟩ := h.lengths hd
  have hAl : As'.length = ds.length := by rw [← i6]; simp
  have hInl : In.length = ds.length := by rw [← i5]; simp
  have hLl : Ls.length = ds.length := by rw [hds]; simp
  obtain ⟨j, hj, hjm⟩ := fallsIn_requested hd0 (by omega) hz
  have hj1 := hj.1
  obtain ⟨A, hA⟩ : ∃ A, (AnyLayer.plain (lr.store rr) :: (As' ++ [.plain (lt.store rt)]))[j]? = some A :=
    ⟨_, List.getElem?_eq_getElem (by simp; omega)⟩
  have hloc := h.locate hd i6 hd0 hj hA
  have hmj := hjm
  have hkept : ∃ (L : LayerIn (Fin (M * M) ⊕ Fin (M * M))) (ic : ICVal (M * M)), Kept kx ky W0 V0 A L ic ∧
      L.W.det ≠ 0 ∧ L.V.det ≠ 0 := by
    cases j with
    | zero =>
      simp only [List.getElem?_cons_zero, Option.some.injEq] at hA
      subst hA
      exact ⟨_, _, kept_plain (l := lr) (r := rr) hd.ref_fields h.gap, hWr, hVr⟩
    | succ i =>
      rw [List.getElem?_cons_succ] at hA hjm
      rcases lt_or_ge i ds.length with hi' | hi'
      · rw [List.getElem?_append_left (by omega)] at hA hjm
        obtain ⟨x, hx⟩ : ∃ x, stack[i]? = some x := ⟨_, List.getElem?_eq_getElem (by omega)⟩
        obtain ⟨L, hL⟩ : ∃ L, In[i]? = some L := ⟨_, List.getElem?_eq_getElem (by omega)⟩
        obtain ⟨l, hl⟩ : ∃ l, Ls[i]? = some l := ⟨_, List.getElem?_eq_getElem (by omega)⟩
        obtain ⟨S, hS⟩ : ∃ S, Ss[i]? = some S := ⟨_, List.getElem?_eq_getElem (by omega)⟩
        have hfl := forall₂_get i7 hx hA (requested_of_mask hx hjm)
        have hz' : (In.zip (Ls.map TwistedLayer.keptIC))[i]? = some (L, l.keptIC) := by
          rw [List.getElem?_zip_eq_some]
          exact ⟨hL, by rw [List.getElem?_map, hl]; rfl⟩
        exact ⟨L, _, forall₂_get i8 hA hz' hfl, buildScatmat_det (forall₂_get i1 hL hS)⟩
      · have e : i = ds.length := by omega
        subst e
        rw [List.getElem?_append_right (by omega), hAl, Nat.sub_self] at hA
        simp only [List.getElem?_cons_zero, Option.some.injEq] at hA
        subst hA
        exact ⟨_, _, kept_plain (l := lt) (r := rt) hd.trans_fields h.gap, hWt, hVt⟩
  obtain ⟨L, ic, hK, hW, hV⟩ := hkept
  obtain ⟨⟨a, b⟩, hab⟩ := fieldOf_surjective hWr hVr ⟨E, H⟩
  have hjl : j < (rr.S :: (Ss ++ [rt.S])).length := by simp; omega
  obtain ⟨hm1, hm2⟩ := List.getElem?_eq_some_iff.1 hmj
  obtain ⟨Sl, Sr, x0, hSl, hSr, hx0, -⟩ := C06_stack_interior (by simp; omega) h.stack_ok hjl hm2 a
  obtain ⟨B, hB⟩ := fieldOf_surjective hW hV (fieldOf W0 V0 ⟨x0.1, x0.2⟩)
  have hs3 : c3.source = some src := by rw [h.rest']; exact h.source
  have hst3 : c3.stacked = some st := by rw [h.rest']
  obtain ⟨f, hf, -⟩ := fourierFields_kept (E := E) (H := H) (b := b) hloc hK hs3
    (by rw [h.rest']; exact hkv0) h.ref' hd.ref_fields hst3 hSl hSr hWr hVr hW hV hab.symm hx0 hB.symm
  refine ⟨⟨f, hf⟩, fun x y kp => ?_⟩
  have hk' : ∃ v, c3.expansion.kVectors (kp.getD src.kp) src.wavelength 1 = .ok v :=
    ⟨(_, _, _), kVectors_eq_ok.2 ⟨h.wl, rfl, rfl, rfl⟩⟩
  obtain ⟨⟨kx', ky', kz'⟩, hk'⟩ := hk'
  simp only [Crystal.fieldsAt, hst3, hs3, Crystal.attr, Crystal.orDefault, Option.isSome_some, pyCheck_ok, ok_bind, hk',
    hf]
  exact ⟨_, rfl⟩

end

end Khepri
