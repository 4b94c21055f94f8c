import Verif.Lemmas.Profile

set_option linter.unusedSectionVars false

/-!
The fields returned for a solved device are those of its field profile.
-/

namespace Khepri

open Matrix

variable {N : ℕ}

section
variable {lib : NumLib} {c c' : Crystal N} {stack : List String} {mask : List Bool}
  {lr lt : Layer N} {Ls : List (Layer N)} {src : Source}
  {W0 V0 : Mat2 N} {rr rt : Solved N} {rs : List (Solved N)} {st : Stacked (Fin N ⊕ Fin N)}

theorem SolvedDevice.maxwell_modes {er et : ℂ} {kx ky : Fin N → ℂ} (he : EigContract (lib.eig N))
    (h : SolvedDevice lib c c' stack mask lr Ls lt er et src kx ky W0 V0 rr rs rt st) :
    ∃ Ms : List (Mat2 N × Mat2 N × ℝ),
      List.Forall₂ (fun l M => ∃ C, Permittivity lib.jv1 c.expansion l.form C ∧ C.det ≠ 0 ∧
        M = (maxwellP kx ky C, maxwellQ kx ky C, l.depth * (2 * Real.pi / src.wavelength))) Ls Ms ∧
      List.Forall₂ (fun M r => IsModes M.1 M.2.1 r.W r.V r.L) Ms rs ∧
      List.Forall₂ (fun M d => M.2.2 = d * (2 * Real.pi / src.wavelength)) Ms (Ls.map Layer.depth) ∧
      ∀ F G, FieldChain ((Ls.zip rs).map fun x =>
          ⟨x.2.W, x.2.V, x.2.L, x.1.depth * (2 * Real.pi / src.wavelength)⟩) F G ↔
        MaxwellChain Ms F G := by
  have := h.lay
  clear h
  induction this with
  | nil => exact ⟨[], .nil, .nil, .nil, fun _ _ => Iff.rfl⟩
  | cons h1 _ ih =>
    obtain ⟨Ms, hM, hI, hD, hF⟩ := ih
    obtain ⟨C, hC, hd, hi, -⟩ := h1.perm
    refine ⟨_ :: Ms, .cons ⟨C, hC, hd, rfl⟩ hM, .cons (hi he) hI, .cons rfl hD, fun F G => ?_⟩
    obtain ⟨hW, hV⟩ := buildScatmat_det h1.scat
    simp only [List.zip_cons_cons, List.map_cons, FieldChain, MaxwellChain, hF]
    simp only [modal_iff_maxwell hW hV (hi he).1 (hi he).2]

variable {kx ky : Fin N → ℝ} {er et : ℝ}

theorem SolvedDevice.profile (he : EigContract (lib.eig N)) (hd : StandardDevice c stack mask lr Ls lt er et)
    (h : SolvedDevice lib c c' stack mask lr Ls lt er et src (fun i => (kx i : ℂ)) (fun i => (ky i : ℂ))
      W0 V0 rr rs rt st) (hpos : ∀ l ∈ Ls, 0 ≤ l.depth) :
    ∃ Ms : List (Mat2 N × Mat2 N × ℝ),
      List.Forall₂ (fun l M => ∃ C, Permittivity lib.jv1 c.expansion l.form C ∧ C.det ≠ 0 ∧
        M = (maxwellP (fun i => (kx i : ℂ)) (fun i => (ky i : ℂ)) C,
          maxwellQ (fun i => (kx i : ℂ)) (fun i => (ky i : ℂ)) C, l.depth * (2 * Real.pi / src.wavelength))) Ls Ms ∧
      ∀ a : Vec2 N,
        (∃ Φ, DeviceSolution kx ky er et (2 * Real.pi / src.wavelength) Ms (Ls.map Layer.depth) a Φ) ∧
        ∀ Φ, DeviceSolution kx ky er et (2 * Real.pi / src.wavelength) Ms (Ls.map Layer.depth) a Φ →
          (∀ Ψ, DeviceSolution kx ky er et (2 * Real.pi / src.wavelength) Ms (Ls.map Layer.depth) a Ψ → Ψ = Φ) ∧
          ∀ (z : ℝ) (j : ℕ) (l : Layer N) (r : Solved N), FallsIn (Ls.map Layer.depth) z j →
            (lr :: (Ls ++ [lt]))[j]? = some l → (rr :: (rs ++ [rt]))[j]? = some r → l.fields = true →
            (true :: (mask ++ [true]))[j]? = some true →
            (∀ i, ‖Complex.exp (r.L i *
                ((2 * Real.pi / src.wavelength * (l.depth - localZ (Ls.map Layer.depth) z j) : ℝ) : ℂ))‖ ≤ 10 ^ 14 ∧
              ‖Complex.exp (-(r.L i *
                ((2 * Real.pi / src.wavelength * (l.depth - localZ (Ls.map Layer.depth) z j) : ℝ) : ℂ)))‖ ≤ 10 ^ 14) →
            ∀ b E H, outerField kx ky er ⟨a, b⟩ = ⟨E, H⟩ →
            ∃ f, c'.fourierFields z E H = .ok f ∧ (j ≤ Ls.length → f.transverse = Φ z) ∧
              (j = Ls.length + 1 → ∀ t, Φ (Ls.map Layer.depth).sum = outerField kx ky et ⟨t, 0⟩ →
                (f.transverse = Φ z ↔ outerField kx ky 1 ⟨t, 0⟩ = outerField kx ky et ⟨t, 0⟩)) ∧
              (f.sz, f.uz) = longitudinalFields f.sx f.sy f.ux f.uy (fun i => (kx i : ℂ)) (fun i => (ky i : ℂ)) r.IC := by
  obtain ⟨Ms, hMs, hI, hD, hF⟩ := h.maxwell_modes he
  set k0 := 2 * Real.pi / src.wavelength with hk0
  set ds := Ls.map Layer.depth with hds
  have hdp : ∀ d ∈ ds, 0 ≤ d := by simpa [hds] using hpos
  have hlen : Ls.length = rs.length := h.lay.length_eq
  have hdl : ds.length = Ls.length := by simp [hds]
  have hMl : Ms.length = ds.length := hD.length_eq
  have her : er ≠ 0 := by have := h.er_ne; exact_mod_cast this
  have het : et ≠ 0 := by have := h.et_ne; exact_mod_cast this
  have hlay : List.Forall₂ (fun (_ : String) (_ : Layer N) => True) stack Ls :=
    hd.layers.imp fun _ _ _ => trivial
  have hfc := h.fieldChain hd.mask_len hlay
  obtain ⟨-, -, -, hor⟩ := halfSpaceModes_outer h.ref_modes
  obtain ⟨-, -, -, hot⟩ := halfSpaceModes_outer h.trans_modes
  have hIr := halfSpaceModes_isModes her h.ref_modes
  have hIt := halfSpaceModes_isModes het h.trans_modes
  obtain ⟨hWr, hVr⟩ := halfSpaceModes_det h.er_ne h.ref_modes
  obtain ⟨hWt, hVt⟩ := halfSpaceModes_det h.et_ne h.trans_modes
  obtain ⟨A, B, -, -, hW0, hV0, -⟩ := reflectionScatmat_eq_ok.1 h.ref_scat
  refine ⟨Ms, hMs, fun a => ⟨?_, fun Φ hΦ => ⟨fun Ψ hΨ => ?_, ?_⟩⟩⟩
  · -- existence
    obtain ⟨Φ, h1, h2⟩ := deviceField_exists (k0 := k0)
      (Mr := (maxwellP (fun i => (kx i : ℂ)) (fun i => (ky i : ℂ)) ((er : ℂ) • 1),
        maxwellQ (fun i => (kx i : ℂ)) (fun i => (ky i : ℂ)) ((er : ℂ) • 1)))
      (Mt := (maxwellP (fun i => (kx i : ℂ)) (fun i => (ky i : ℂ)) ((et : ℂ) • 1),
        maxwellQ (fun i => (kx i : ℂ)) (fun i => (ky i : ℂ)) ((et : ℂ) • 1))) hMl hdp
      (outerField kx ky er ⟨a, st.Stot.s11 *ᵥ a⟩)
    refine ⟨Φ, h1, ⟨_, h2⟩, st.Stot.s21 *ᵥ a, ?_⟩
    refine maxwellChain_functional (h1.chain hdp hD) ?_
    rw [h2, ← hor, ← hot, ← hF, ← hfc]
    simp [Scatters]
  · -- uniqueness
    obtain ⟨b, hb⟩ := hΦ.incident
    obtain ⟨t, ht⟩ := hΦ.outgoing
    obtain ⟨b', hb'⟩ := hΨ.incident
    obtain ⟨t', ht'⟩ := hΨ.outgoing
    have e := hΦ.field.chain hdp hD
    have e' := hΨ.field.chain hdp hD
    rw [hb, ht, ← hor, ← hot, ← hF, ← hfc] at e
    rw [hb', ht', ← hor, ← hot, ← hF, ← hfc] at e'
    refine hΨ.field.unique hΦ.field hMl hdp ?_
    have k1 : b = _ := e.1
    have k2 : b' = _ := e'.1
    simp only [mulVec_zero, add_zero] at k1 k2
    rw [hb, hb', k1, k2]
  · -- the returned fields
    intro z j l r hz hl hr hf hm hu b E H hE
    obtain ⟨b0, hb0⟩ := hΦ.incident
    obtain ⟨t0, ht0⟩ := hΦ.outgoing
    rw [← hor] at hE hb0
    rw [← hot] at ht0
    obtain ⟨f, x, B, f1, f2, f3, f4, f5⟩ := h.fields hd hpos hz hl hr hf hm hE
    suffices hgoal : (j ≤ Ls.length → f.transverse = Φ z) ∧
        (j = Ls.length + 1 → (f.transverse = Φ z ↔ outerField kx ky 1 ⟨t0, 0⟩ = outerField kx ky et ⟨t0, 0⟩)) by
      refine ⟨f, f1, hgoal.1, fun hj t ht => ?_, f4⟩
      have : (⟨t, 0⟩ : Port (Fin N ⊕ Fin N)) = ⟨t0, 0⟩ := by
        apply fieldOf_injective hWt hVt
        rw [← ht0, ht, hot]
      rw [this]; exact hgoal.2 hj
    -- gap amplitudes of the profile
    choose m hm' using fun i : ℕ => fieldOf_surjective hW0 hV0 (Φ (startOf ds i))
    let M : ℕ → Port (Fin N ⊕ Fin N) := fun i => if i = 0 then ⟨a, b0⟩ else
      if i ≤ Ls.length + 1 then m (i - 1) else ⟨t0, 0⟩
    have hSl : (rr.S :: (rs.map Solved.S ++ [rt.S])).length = Ls.length + 2 := by simp [hlen]
    have hseq : ∀ i S, (rr.S :: (rs.map Solved.S ++ [rt.S]))[i]? = some S → Scatters S (M i) (M (i + 1)) := by
      intro i S hS
      cases i with
      | zero =>
        simp only [List.getElem?_cons_zero, Option.some.injEq] at hS
        subst hS
        rw [scatters_reflection h.ref_scat]
        simp only [M, if_true, zero_add, one_ne_zero, if_false, le_add_iff_nonneg_left, Nat.zero_le, Nat.sub_self]
        rw [← hm' 0, startOf_zero, hb0]
      | succ i =>
        rw [List.getElem?_cons_succ] at hS
        rcases lt_trichotomy i Ls.length with hi | hi | hi
        · rw [List.getElem?_append_left (by simp; omega), List.getElem?_map] at hS
          have hri : rs[i]? = some (rs[i]'(by omega)) := List.getElem?_eq_getElem (by omega)
          rw [hri] at hS
          simp only [Option.map_some, Option.some.injEq] at hS
          subst hS
          have hsc := (List.forall₂_iff_get.1 h.lay).2 i (by omega) (by omega)
          simp only [List.get_eq_getElem] at hsc
          rw [scatters_buildScatmat hsc.scat, LayerBVP]
          have e1 : M (i + 1) = m i := by simp only [M]; rw [if_neg (by omega), if_pos (by omega)]; rfl
          have e2 : M (i + 1 + 1) = m (i + 1) := by simp only [M]; rw [if_neg (by omega), if_pos (by omega)]; rfl
          rw [e1, e2, ← hm', ← hm']
          obtain ⟨dW, dV⟩ := buildScatmat_det hsc.scat
          have hIi := (List.forall₂_iff_get.1 hI).2 i (by omega) (by omega)
          simp only [List.get_eq_getElem] at hIi
          rw [modal_iff_maxwell dW dV hIi.1 hIi.2, maxwellTransfer_iff,
            hΦ.field.step hdp (List.getElem?_eq_getElem (by omega)), startOf_succ (by omega)]
          congr 1
          simp only [hds, List.getElem_map]; ring
        · rw [List.getElem?_append_right (by simp; omega)] at hS
          have e0 : i - (rs.map Solved.S).length = 0 := by simp; omega
          rw [e0] at hS
          simp only [List.getElem?_cons_zero, Option.some.injEq] at hS
          subst hS
          rw [scatters_transmission h.trans_scat]
          have e1 : M (i + 1) = m i := by simp only [M]; rw [if_neg (by omega), if_pos (by omega)]; rfl
          have e2 : M (i + 1 + 1) = ⟨t0, 0⟩ := by simp only [M]; rw [if_neg (by omega), if_neg (by omega)]
          rw [e1, e2, ← hm', ← ht0, hi, ← hdl, startOf_length]
        · rw [List.getElem?_eq_none (by simp; omega)] at hS
          cases hS
    have hj2 : j ≤ Ls.length + 1 := by have := hz.1; omega
    obtain ⟨c1, c2⟩ := chain_of_seq hseq (k := j + 1) (by omega)
    have hML : M (rr.S :: (rs.map Solved.S ++ [rt.S])).length = ⟨t0, 0⟩ := by
      rw [hSl]; simp only [M]; rw [if_neg (by omega), if_neg (by omega)]
    rw [hML] at c2
    obtain ⟨hx, -, -⟩ := (f5 _ _ _ rfl rfl).1 ⟨c1, c2⟩
    -- the medium and its modes
    obtain ⟨hW, hV⟩ := h.det_at hr
    have hcl : f.transverse = fieldOf r.W r.V
        ⟨fun i => Complex.exp (r.L i * ((k0 * (l.depth - localZ ds z j) : ℝ) : ℂ)) * B.fwd i,
         fun i => Complex.exp (-(r.L i * ((k0 * (l.depth - localZ ds z j) : ℝ) : ℂ))) * B.bwd i⟩ := by
      rw [f3]
      congr 2
      · funext i; rw [clampPhasor_of_le (hu i).1]
      · funext i; rw [clampPhasor_of_le (hu i).2]
    have hMT : ModalTransfer r.W r.V r.L (k0 * (l.depth - localZ ds z j)) f.transverse (fieldOf W0 V0 x) := by
      refine ⟨_, B, hcl, f2.symm, fun i => ?_, fun i => ?_⟩
      · rw [← mul_assoc, ← Complex.exp_add, neg_add_cancel, Complex.exp_zero, one_mul]
      · rw [← mul_assoc, ← Complex.exp_add, add_neg_cancel, Complex.exp_zero, one_mul]
    rcases Nat.eq_zero_or_pos j with rfl | hj0
    · -- incidence medium
      refine ⟨fun _ => ?_, fun hh => by omega⟩
      simp only [List.getElem?_cons_zero, Option.some.injEq] at hl hr
      subst hl hr
      have hz0 : z ≤ 0 := by have := hz.2.2 (Nat.zero_le _); rwa [startOf_zero] at this
      have hx0 : x = m 0 := by rw [← hx]; simp [M]
      rw [modal_iff_maxwell hW hV hIr.1 hIr.2, maxwellTransfer_iff, hx0, ← hm', startOf_zero, hd.ref_depth] at hMT
      simp only [localZ, if_true] at hMT
      rw [maxwellTransfer_iff.1 (hΦ.field.before z 0 hz0 le_rfl)] at hMT
      exact (mtrans_injective hMT).symm
    · obtain ⟨i, rfl⟩ : ∃ i, j = i + 1 := ⟨j - 1, by omega⟩
      rw [List.getElem?_cons_succ] at hl hr
      have hlz : localZ ds z (i + 1) = z - startOf ds i := by simp [localZ]
      have hlo : startOf ds i ≤ z := (hz.2.1 i (by omega)).le
      rw [hlz] at hMT
      rcases lt_or_ge i Ls.length with hi | hi
      · -- a layer
        refine ⟨fun _ => ?_, fun hh => by omega⟩
        rw [List.getElem?_append_left (by omega)] at hl hr
        have hhi : z ≤ startOf ds (i + 1) := hz.2.2 (by omega)
        have hx0 : x = m (i + 1) := by
          rw [← hx]; simp only [M]; rw [if_neg (by omega), if_pos (by omega)]; rfl
        have hIi := (List.forall₂_iff_get.1 hI).2 i (by omega) (by omega)
        simp only [List.get_eq_getElem] at hIi
        obtain ⟨_, hre⟩ := List.getElem?_eq_some_iff.1 hr
        obtain ⟨_, hle⟩ := List.getElem?_eq_some_iff.1 hl
        rw [hre] at hIi
        rw [modal_iff_maxwell hW hV hIi.1 hIi.2, maxwellTransfer_iff, hx0, ← hm'] at hMT
        have hin := maxwellTransfer_iff.1 (hΦ.field.inside i _ (List.getElem?_eq_getElem (by omega)) z _ hlo hhi le_rfl)
        have hdi : l.depth = ds[i]'(by omega) := by simp only [hds, List.getElem_map, hle]
        rw [hin, startOf_succ (by omega), hdi] at hMT
        have e : startOf ds i + ds[i]'(by omega) - z = ds[i]'(by omega) - (z - startOf ds i) := by ring
        rw [e] at hMT
        exact (mtrans_injective hMT).symm
      · -- emergence medium
        refine ⟨fun hh => by omega, fun _ => ?_⟩
        have hi' : i = Ls.length := by omega
        rw [hi'] at hl hr
        rw [List.getElem?_append_right le_rfl, Nat.sub_self] at hl
        rw [List.getElem?_append_right hlen.ge, hlen, Nat.sub_self] at hr
        simp only [List.getElem?_cons_zero, Option.some.injEq] at hl hr
        subst hl hr
        have hx0 : x = ⟨t0, 0⟩ := by
          rw [← hx]; simp only [M]; rw [if_neg (by omega), if_neg (by omega)]
        rw [hi', ← hdl, startOf_length] at hMT hlo
        rw [modal_iff_maxwell hW hV hIt.1 hIt.2, maxwellTransfer_iff, hx0, hd.trans_depth] at hMT
        have := maxwellTransfer_iff.1 (hΦ.field.after _ z le_rfl hlo)
        have e : k0 * (z - ds.sum) + k0 * (0 - (z - ds.sum)) = 0 := by ring
        have hback : mtrans (maxwellP (fun i => (kx i : ℂ)) (fun i => (ky i : ℂ)) ((et : ℂ) • 1))
            (maxwellQ (fun i => (kx i : ℂ)) (fun i => (ky i : ℂ)) ((et : ℂ) • 1)) (k0 * (0 - (z - ds.sum))) (Φ z) =
            Φ ds.sum := by
          rw [this, ← mtrans_add, e, mtrans_zero]
        rw [← hot, ← ht0, ← gap_outer h.gap, hMT, ← hback]
        exact ⟨fun hh => by rw [hh], mtrans_injective⟩

end

end Khepri
