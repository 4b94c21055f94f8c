import Verif.Lemmas.AnyDevice
import Verif.Lemmas.FieldsProfile
import Verif.Lemmas.FieldsUser

set_option linter.unusedSectionVars false

/-!
The fields returned for a device of layers of any kind are those of its field profile.
-/

namespace Khepri

open Matrix

variable {N : ℕ}

/-- Chains of fields through modes of Maxwell's equations. -/
theorem layersIn_iff_maxwell {W0 V0 : Mat2 N} {k0 : ℝ} {In : List (LayerIn (Fin N ⊕ Fin N))}
    {Ms : List (Mat2 N × Mat2 N × ℝ)} {Ss : List (SMat (Fin N ⊕ Fin N))}
    (hIn : List.Forall₂ (fun (L : LayerIn (Fin N ⊕ Fin N)) S =>
      buildScatmat L.W L.V W0 V0 L.lam L.depth k0 = .ok S) In Ss)
    (hI : List.Forall₂ (fun (M : Mat2 N × Mat2 N × ℝ) L => IsModes M.1 M.2.1 L.W L.V L.lam) Ms In)
    (hD : List.Forall₂ (fun (M : Mat2 N × Mat2 N × ℝ) (L : LayerIn (Fin N ⊕ Fin N)) => M.2.2 = L.depth * k0) Ms In) :
    ∀ F G, FieldChain (In.map (LayerIn.toMode k0)) F G ↔ MaxwellChain Ms F G := by
  induction hI generalizing Ss with
  | nil => exact fun _ _ => Iff.rfl
  | cons h1 _ ih =>
    cases hD with
    | cons h2 hd' =>
      cases hIn with
      | cons h3 hIn' =>
        intro F G
        obtain ⟨hW, hV⟩ := buildScatmat_det h3
        simp only [List.map_cons, FieldChain, MaxwellChain, ih hIn' hd', LayerIn.toMode, h2]
        simp only [modal_iff_maxwell hW hV h1.1 h1.2]

section
variable {lib : NumLib} {c c' : Crystal N} {stack : List String} {mask : List Bool}
  {lr lt : Layer N} {As As' : List (AnyLayer N)} {Ss : List (SMat (Fin N ⊕ Fin N))} {src : Source}
  {W0 V0 : Mat2 N} {rr rt : Solved N} {st : Stacked (Fin N ⊕ Fin N)}

theorem AnySolved.lengths {er et : ℂ} {kx ky : Fin N → ℂ} (hd : AnyDevice c stack mask lr As lt er et)
    (h : AnySolved lib c c' stack mask lr As lt er et src kx ky W0 V0 rr As' Ss rt st) :
    stack.length = As'.length ∧ Ss.length = As'.length ∧ mask.length = As'.length := by
  have h1 := hd.layers.length_eq
  have h2 := h.lay.length_eq
  have h3 := h.scat.length_eq
  have h4 := hd.mask_len
  omega

theorem AnySolved.layer_at {er et : ℂ} {kx ky : Fin N → ℂ} (hd : AnyDevice c stack mask lr As lt er et)
    (h : AnySolved lib c c' stack mask lr As lt er et src kx ky W0 V0 rr As' Ss rt st) {j : ℕ} {A : AnyLayer N}
    (hA : (.plain (lr.store rr) :: (As' ++ [.plain (lt.store rt)]))[j]? = some A) :
    ∃ x, ("Sref" :: (stack ++ ["Strans"]))[j]? = some x ∧ c'.layers x = some A := by
  have hlen := (h.lengths hd).1
  have hz : List.Forall₂ (fun x l => c'.layers x = some l) ("Sref" :: (stack ++ ["Strans"]))
      (.plain (lr.store rr) :: (As' ++ [.plain (lt.store rt)])) :=
    .cons h.ref' (List.rel_append h.lay' (.cons h.trans' .nil))
  have hj := (List.getElem?_eq_some_iff.1 hA).1
  have hx : ("Sref" :: (stack ++ ["Strans"]))[j]? = some (("Sref" :: (stack ++ ["Strans"]))[j]'(by
      simp at hj ⊢; omega)) := List.getElem?_eq_getElem _
  exact ⟨_, hx, forall₂_get hz hx hA⟩

theorem AnySolved.locate {er et : ℂ} {kx ky : Fin N → ℂ} (hd : AnyDevice c stack mask lr As lt er et)
    (h : AnySolved lib c c' stack mask lr As lt er et src kx ky W0 V0 rr As' Ss rt st) {ds : List ℝ}
    (hds : As'.map AnyLayer.depth = ds) (hpos : ∀ d ∈ ds, 0 ≤ d) {z : ℝ} {j : ℕ} (hz : FallsIn ds z j) {A : AnyLayer N}
    (hA : (.plain (lr.store rr) :: (As' ++ [.plain (lt.store rt)]))[j]? = some A) :
    c'.locateLayer z = .ok (A, (j : ℤ), ((localZ ds z j : ℝ) : EReal)) := by
  obtain ⟨x, hx, hx'⟩ := h.layer_at hd hA
  have hn : c'.globalStacking = some ("Sref" :: (stack ++ ["Strans"])) := by
    rw [h.rest']; exact hd.stacking
  have hp : c'.stackPositions = Crystal.devicePositions ds := by
    have := h.pos'
    rw [hds, Crystal.positions_device] at this
    exact (Except.ok.inj this).symm
  exact Crystal.locateLayer_device hp hn hpos hz.1 hz.2.1 hz.2.2 hx hx'

variable {kx ky : Fin N → ℝ} {er et : ℝ}

/-- The field of a device of layers of any kind, given modes of Maxwell's equations that give the S-matrices of its
layers: it exists, it is unique, and it is what `_fourier_fields` returns in the layers that keep these modes. -/
theorem AnySolved.profile (hd : AnyDevice c stack mask lr As lt er et)
    (h : AnySolved lib c c' stack mask lr As lt er et src (fun i => (kx i : ℂ)) (fun i => (ky i : ℂ))
      W0 V0 rr As' Ss rt st) {In : List (LayerIn (Fin N ⊕ Fin N))} {Ms : List (Mat2 N × Mat2 N × ℝ)} {ds : List ℝ}
    (hIn : List.Forall₂ (fun (L : LayerIn (Fin N ⊕ Fin N)) S =>
      buildScatmat L.W L.V W0 V0 L.lam L.depth (2 * Real.pi / src.wavelength) = .ok S) In Ss)
    (hI : List.Forall₂ (fun (M : Mat2 N × Mat2 N × ℝ) L => IsModes M.1 M.2.1 L.W L.V L.lam) Ms In)
    (hD : List.Forall₂ (fun (M : Mat2 N × Mat2 N × ℝ) d => M.2.2 = d * (2 * Real.pi / src.wavelength)) Ms ds)
    (hdI : In.map LayerIn.depth = ds) (hdA : As'.map AnyLayer.depth = ds) (hdp : ∀ d ∈ ds, 0 ≤ d) (a : Vec2 N) :
    (∃ Φ, DeviceSolution kx ky er et (2 * Real.pi / src.wavelength) Ms ds a Φ) ∧
    ∀ Φ, DeviceSolution kx ky er et (2 * Real.pi / src.wavelength) Ms ds a Φ →
      (∀ Ψ, DeviceSolution kx ky er et (2 * Real.pi / src.wavelength) Ms ds a Ψ → Ψ = Φ) ∧
      ∀ (z : ℝ) (j : ℕ) (A : AnyLayer N) (L : LayerIn (Fin N ⊕ Fin N)) (ic : ICVal N), FallsIn ds z j →
        (.plain (lr.store rr) :: (As' ++ [.plain (lt.store rt)]))[j]? = some A →
        (⟨rr.W, rr.V, rr.L, 0⟩ :: (In ++ [⟨rt.W, rt.V, rt.L, 0⟩]))[j]? = some L →
        Kept (fun i => (kx i : ℂ)) (fun i => (ky i : ℂ)) W0 V0 A L ic →
        (true :: (mask ++ [true]))[j]? = some true →
        (∀ i, ‖Complex.exp (L.lam i *
            ((2 * Real.pi / src.wavelength * (L.depth - localZ ds z j) : ℝ) : ℂ))‖ ≤ 10 ^ 14 ∧
          ‖Complex.exp (-(L.lam i *
            ((2 * Real.pi / src.wavelength * (L.depth - localZ ds z j) : ℝ) : ℂ)))‖ ≤ 10 ^ 14) →
        ∀ b E H, outerField kx ky er ⟨a, b⟩ = ⟨E, H⟩ →
        ∃ f, c'.fourierFields z E H = .ok f ∧ (j ≤ ds.length → f.transverse = Φ z) ∧
          (j = ds.length + 1 → ∀ t, Φ ds.sum = outerField kx ky et ⟨t, 0⟩ →
            (f.transverse = Φ z ↔ outerField kx ky 1 ⟨t, 0⟩ = outerField kx ky et ⟨t, 0⟩)) ∧
          (f.sz, f.uz) = longitudinalFields f.sx f.sy f.ux f.uy (fun i => (kx i : ℂ)) (fun i => (ky i : ℂ)) ic := by
  set k0 := 2 * Real.pi / src.wavelength with hk0
  obtain ⟨hlen', hSsl, hml⟩ := h.lengths hd
  have hInl : In.length = ds.length := by rw [← hdI]; simp
  have hAl : As'.length = ds.length := by rw [← hdA]; simp
  have hMl : Ms.length = ds.length := hD.length_eq
  have her : er ≠ 0 := by have := h.er_ne; exact_mod_cast this
  have het : et ≠ 0 := by have := h.et_ne; exact_mod_cast this
  have hfc := h.fieldChain hd hIn
  have hF : ∀ F G, FieldChain (In.map (LayerIn.toMode k0)) F G ↔ MaxwellChain Ms F G := by
    have hd' : List.Forall₂ (fun (M : Mat2 N × Mat2 N × ℝ) (L : LayerIn (Fin N ⊕ Fin N)) => M.2.2 = L.depth * k0)
        Ms In := by
      rw [← hdI, List.forall₂_map_right_iff] at hD
      exact hD
    exact layersIn_iff_maxwell hIn hI hd'
  obtain ⟨-, -, -, hor⟩ := halfSpaceModes_outer h.ref_modes
  obtain ⟨-, -, -, hot⟩ := halfSpaceModes_outer h.trans_modes
  have hIr := halfSpaceModes_isModes her h.ref_modes
  have hIt := halfSpaceModes_isModes het h.trans_modes
  obtain ⟨hWr, hVr⟩ := halfSpaceModes_det h.er_ne h.ref_modes
  obtain ⟨hWt, hVt⟩ := halfSpaceModes_det h.et_ne h.trans_modes
  obtain ⟨A0, B0, -, -, hW0, hV0, -⟩ := reflectionScatmat_eq_ok.1 h.ref_scat
  refine ⟨?_, fun Φ hΦ => ⟨fun Ψ hΨ => ?_, ?_⟩⟩
  · -- existence
    obtain ⟨Φ, h1, h2⟩ := deviceField_exists (k0 := k0)
      (Mr := (maxwellP (fun i => (kx i : ℂ)) (fun i => (ky i : ℂ)) ((er : ℂ) • 1),
        maxwellQ (fun i => (kx i : ℂ)) (fun i => (ky i : ℂ)) ((er : ℂ) • 1)))
      (Mt := (maxwellP (fun i => (kx i : ℂ)) (fun i => (ky i : ℂ)) ((et : ℂ) • 1),
        maxwellQ (fun i => (kx i : ℂ)) (fun i => (ky i : ℂ)) ((et : ℂ) • 1))) hMl hdp
      (outerField kx ky er ⟨a, st.Stot.s11 *ᵥ a⟩)
    refine ⟨Φ, h1, ⟨_, h2⟩, st.Stot.s21 *ᵥ a, ?_⟩
    refine maxwellChain_functional (h1.chain hdp hD) ?_
    rw [h2, ← hor, ← hot, ← hF, ← hfc]
    simp [Scatters]
  · -- uniqueness
    obtain ⟨b, hb⟩ := hΦ.incident
    obtain ⟨t, ht⟩ := hΦ.outgoing
    obtain ⟨b', hb'⟩ := hΨ.incident
    obtain ⟨t', ht'⟩ := hΨ.outgoing
    have e := hΦ.field.chain hdp hD
    have e' := hΨ.field.chain hdp hD
    rw [hb, ht, ← hor, ← hot, ← hF, ← hfc] at e
    rw [hb', ht', ← hor, ← hot, ← hF, ← hfc] at e'
    refine hΨ.field.unique hΦ.field hMl hdp ?_
    have k1 : b = _ := e.1
    have k2 : b' = _ := e'.1
    simp only [mulVec_zero, add_zero] at k1 k2
    rw [hb, hb', k1, k2]
  · -- the returned fields
    intro z j A L ic hz hA hL hK hm hu b E H hE
    obtain ⟨b0, hb0⟩ := hΦ.incident
    obtain ⟨t0, ht0⟩ := hΦ.outgoing
    rw [← hor] at hE hb0
    rw [← hot] at ht0
    have hSl : (rr.S :: (Ss ++ [rt.S])).length = ds.length + 2 := by simp; omega
    have hj2 : j ≤ ds.length + 1 := hz.1
    have hjl : j < (rr.S :: (Ss ++ [rt.S])).length := by omega
    obtain ⟨hmj, hmj'⟩ := List.getElem?_eq_some_iff.1 hm
    obtain ⟨Sl, Sr, x0, hSl', hSr, hx0, hx'⟩ := C06_stack_interior (by simp; omega) h.stack_ok hjl hmj' a
    obtain ⟨kz, hk⟩ := h.kv
    have hWV : L.W.det ≠ 0 ∧ L.V.det ≠ 0 := by
      have hm := List.mem_of_getElem? hL
      simp only [List.mem_cons, List.mem_append, List.not_mem_nil, or_false] at hm
      rcases hm with rfl | hm | rfl
      · exact ⟨hWr, hVr⟩
      · obtain ⟨i, hi, rfl⟩ := List.getElem_of_mem hm
        have := (List.forall₂_iff_get.1 hIn).2 i hi (by rw [← hIn.length_eq]; exact hi)
        exact buildScatmat_det this
      · exact ⟨hWt, hVt⟩
    obtain ⟨hW, hV⟩ := hWV
    obtain ⟨B, hB⟩ := fieldOf_surjective hW hV (fieldOf W0 V0 ⟨x0.1, x0.2⟩)
    obtain ⟨f, f1, f3, f4⟩ := fourierFields_kept (E := E) (H := H) (b := b) (h.locate hd hdA hdp hz hA) hK
      (by rw [h.rest']; exact h.source)
      (by rw [h.rest']; exact hk) h.ref' hd.ref_fields (by rw [h.rest']) hSl' hSr hWr hVr hW hV hE hx0 hB.symm
    suffices hgoal : (j ≤ ds.length → f.transverse = Φ z) ∧
        (j = ds.length + 1 → (f.transverse = Φ z ↔ outerField kx ky 1 ⟨t0, 0⟩ = outerField kx ky et ⟨t0, 0⟩)) by
      refine ⟨f, f1, hgoal.1, fun hj t ht => ?_, f4⟩
      have : (⟨t, 0⟩ : Port (Fin N ⊕ Fin N)) = ⟨t0, 0⟩ := by
        apply fieldOf_injective hWt hVt
        rw [← ht0, ht, hot]
      rw [this]; exact hgoal.2 hj
    -- gap amplitudes of the profile
    choose m hm' using fun i : ℕ => fieldOf_surjective hW0 hV0 (Φ (startOf ds i))
    let M : ℕ → Port (Fin N ⊕ Fin N) := fun i => if i = 0 then ⟨a, b0⟩ else
      if i ≤ ds.length + 1 then m (i - 1) else ⟨t0, 0⟩
    have hseq : ∀ i S, (rr.S :: (Ss ++ [rt.S]))[i]? = some S → Scatters S (M i) (M (i + 1)) := by
      intro i S hS
      cases i with
      | zero =>
        simp only [List.getElem?_cons_zero, Option.some.injEq] at hS
        subst hS
        rw [scatters_reflection h.ref_scat]
        simp only [M, if_true, zero_add, one_ne_zero, if_false, le_add_iff_nonneg_left, Nat.zero_le, Nat.sub_self]
        rw [← hm' 0, startOf_zero, hb0]
      | succ i =>
        rw [List.getElem?_cons_succ] at hS
        rcases lt_trichotomy i ds.length with hi | hi | hi
        · rw [List.getElem?_append_left (by omega)] at hS
          have hLi : In[i]? = some (In[i]'(by omega)) := List.getElem?_eq_getElem (by omega)
          have hMi : Ms[i]? = some (Ms[i]'(by omega)) := List.getElem?_eq_getElem (by omega)
          have hsc := forall₂_get hIn hLi hS
          rw [scatters_buildScatmat hsc, LayerBVP]
          have e1 : M (i + 1) = m i := by simp only [M]; rw [if_neg (by omega), if_pos (by omega)]; rfl
          have e2 : M (i + 1 + 1) = m (i + 1) := by simp only [M]; rw [if_neg (by omega), if_pos (by omega)]; rfl
          rw [e1, e2, ← hm', ← hm']
          obtain ⟨dW, dV⟩ := buildScatmat_det hsc
          have hIi := forall₂_get hI hMi hLi
          rw [modal_iff_maxwell dW dV hIi.1 hIi.2, maxwellTransfer_iff,
            hΦ.field.step hdp hMi, startOf_succ (by omega)]
          congr 1
          simp only [← hdI, List.getElem_map]; ring
        · rw [List.getElem?_append_right (by omega)] at hS
          have e0 : i - Ss.length = 0 := by omega
          rw [e0] at hS
          simp only [List.getElem?_cons_zero, Option.some.injEq] at hS
          subst hS
          rw [scatters_transmission h.trans_scat]
          have e1 : M (i + 1) = m i := by simp only [M]; rw [if_neg (by omega), if_pos (by omega)]; rfl
          have e2 : M (i + 1 + 1) = ⟨t0, 0⟩ := by simp only [M]; rw [if_neg (by omega), if_neg (by omega)]
          rw [e1, e2, ← hm', ← ht0, hi, startOf_length]
        · rw [List.getElem?_eq_none (by simp; omega)] at hS
          cases hS
    obtain ⟨c1, c2⟩ := chain_of_seq hseq (k := j + 1) (by omega)
    have hML : M (rr.S :: (Ss ++ [rt.S])).length = ⟨t0, 0⟩ := by
      rw [hSl]; simp only [M]; rw [if_neg (by omega), if_neg (by omega)]
    rw [hML] at c2
    obtain ⟨hx, -, -⟩ := (hx' _ _ _ rfl rfl).1 ⟨c1, c2⟩
    set x : Port (Fin N ⊕ Fin N) := ⟨x0.1, x0.2⟩ with hxdef
    -- the medium and its modes
    have hcl : f.transverse = fieldOf L.W L.V
        ⟨fun i => Complex.exp (L.lam i * ((k0 * (L.depth - localZ ds z j) : ℝ) : ℂ)) * B.fwd i,
         fun i => Complex.exp (-(L.lam i * ((k0 * (L.depth - localZ ds z j) : ℝ) : ℂ))) * B.bwd i⟩ := by
      rw [f3]
      congr 2
      · funext i; rw [clampPhasor_of_le (hu i).1]
      · funext i; rw [clampPhasor_of_le (hu i).2]
    have hMT : ModalTransfer L.W L.V L.lam (k0 * (L.depth - localZ ds z j)) f.transverse (fieldOf W0 V0 x) := by
      refine ⟨_, B, hcl, hB, fun i => ?_, fun i => ?_⟩
      · rw [← mul_assoc, ← Complex.exp_add, neg_add_cancel, Complex.exp_zero, one_mul]
      · rw [← mul_assoc, ← Complex.exp_add, add_neg_cancel, Complex.exp_zero, one_mul]
    rcases Nat.eq_zero_or_pos j with rfl | hj0
    · -- incidence medium
      refine ⟨fun _ => ?_, fun hh => by omega⟩
      simp only [List.getElem?_cons_zero, Option.some.injEq] at hL
      subst hL
      have hz0 : z ≤ 0 := by have := hz.2.2 (Nat.zero_le _); rwa [startOf_zero] at this
      have hx0 : x = m 0 := by rw [← hx]; simp [M]
      rw [modal_iff_maxwell hW hV hIr.1 hIr.2, maxwellTransfer_iff, hx0, ← hm', startOf_zero] at hMT
      simp only [localZ, if_true] at hMT
      rw [maxwellTransfer_iff.1 (hΦ.field.before z 0 hz0 le_rfl)] at hMT
      exact (mtrans_injective hMT).symm
    · obtain ⟨i, rfl⟩ : ∃ i, j = i + 1 := ⟨j - 1, by omega⟩
      rw [List.getElem?_cons_succ] at hL
      have hlz : localZ ds z (i + 1) = z - startOf ds i := by simp [localZ]
      have hlo : startOf ds i ≤ z := (hz.2.1 i (by omega)).le
      rw [hlz] at hMT
      rcases lt_or_ge i ds.length with hi | hi
      · -- a layer
        refine ⟨fun _ => ?_, fun hh => by omega⟩
        rw [List.getElem?_append_left (by omega)] at hL
        have hhi : z ≤ startOf ds (i + 1) := hz.2.2 (by omega)
        have hx0 : x = m (i + 1) := by
          rw [← hx]; simp only [M]; rw [if_neg (by omega), if_pos (by omega)]; rfl
        have hMi : Ms[i]? = some (Ms[i]'(by omega)) := List.getElem?_eq_getElem (by omega)
        have hIi := forall₂_get hI hMi hL
        rw [modal_iff_maxwell hW hV hIi.1 hIi.2, maxwellTransfer_iff, hx0, ← hm'] at hMT
        have hin := maxwellTransfer_iff.1 (hΦ.field.inside i _ hMi z _ hlo hhi le_rfl)
        have hdi : L.depth = ds[i]'(by omega) := by
          obtain ⟨_, hle⟩ := List.getElem?_eq_some_iff.1 hL
          simp only [← hdI, List.getElem_map, hle]
        rw [hin, startOf_succ (by omega), hdi] at hMT
        have e : startOf ds i + ds[i]'(by omega) - z = ds[i]'(by omega) - (z - startOf ds i) := by ring
        rw [e] at hMT
        exact (mtrans_injective hMT).symm
      · -- emergence medium
        refine ⟨fun hh => by omega, fun _ => ?_⟩
        have hi' : i = ds.length := by omega
        rw [hi'] at hL
        rw [List.getElem?_append_right hInl.le, hInl, Nat.sub_self] at hL
        simp only [List.getElem?_cons_zero, Option.some.injEq] at hL
        subst hL
        have hx0 : x = ⟨t0, 0⟩ := by
          rw [← hx]; simp only [M]; rw [if_neg (by omega), if_neg (by omega)]
        rw [hi', startOf_length] at hMT hlo
        rw [modal_iff_maxwell hW hV hIt.1 hIt.2, maxwellTransfer_iff, hx0] at hMT
        have := maxwellTransfer_iff.1 (hΦ.field.after _ z le_rfl hlo)
        have e : k0 * (z - ds.sum) + k0 * (0 - (z - ds.sum)) = 0 := by ring
        have hback : mtrans (maxwellP (fun i => (kx i : ℂ)) (fun i => (ky i : ℂ)) ((et : ℂ) • 1))
            (maxwellQ (fun i => (kx i : ℂ)) (fun i => (ky i : ℂ)) ((et : ℂ) • 1)) (k0 * (0 - (z - ds.sum))) (Φ z) =
            Φ ds.sum := by
          rw [this, ← mtrans_add, e, mtrans_zero]
        rw [← hot, ← ht0, ← gap_outer h.gap, hMT, ← hback]
        exact ⟨fun hh => by rw [hh], mtrans_injective⟩

end

end Khepri
