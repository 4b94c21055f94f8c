import Verif.Lemmas.FieldsCore
import Verif.Lemmas.Poynting

set_option linter.unusedSectionVars false

/-!
`_fourier_fields` on a solved standard device.
-/

namespace Khepri

open Matrix

variable {N : ℕ}

section
variable {lib : NumLib} {c c' : Crystal N} {stack : List String} {mask : List Bool}
  {lr lt : Layer N} {Ls : List (Layer N)} {er et : ℂ} {src : Source} {kx ky : Fin N → ℂ}
  {W0 V0 : Mat2 N} {rr rt : Solved N} {rs : List (Solved N)} {st : Stacked (Fin N ⊕ Fin N)}

theorem SolvedDevice.layer_at (h : SolvedDevice lib c c' stack mask lr Ls lt er et src kx ky W0 V0 rr rs rt st)
    {j : ℕ} {l : Layer N} {r : Solved N} (hl : (lr :: (Ls ++ [lt]))[j]? = some l)
    (hr : (rr :: (rs ++ [rt]))[j]? = some r) :
    ∃ x, ("Sref" :: (stack ++ ["Strans"]))[j]? = some x ∧ c'.layers x = some (.plain (l.store r)) := by
  have hlen : Ls.length = rs.length := h.lay.length_eq
  have hlen' : stack.length = Ls.length := by
    have := h.lay'.length_eq
    rw [List.length_zip, ← hlen, min_self] at this
    exact this
  cases j with
  | zero =>
    simp only [List.getElem?_cons_zero, Option.some.injEq] at hl hr
    subst hl hr
    exact ⟨_, rfl, h.ref'⟩
  | succ j =>
    rw [List.getElem?_cons_succ] at hl hr ⊢
    rcases lt_trichotomy j Ls.length with hj | hj | hj
    · rw [List.getElem?_append_left (by omega)] at hl hr ⊢
      obtain ⟨h1, rfl⟩ := List.getElem?_eq_some_iff.1 hl
      obtain ⟨h2, rfl⟩ := List.getElem?_eq_some_iff.1 hr
      refine ⟨_, List.getElem?_eq_getElem (by omega), ?_⟩
      have := (List.forall₂_iff_get.1 h.lay').2 j (by omega) (by rw [List.length_zip]; omega)
      simpa using this
    · rw [List.getElem?_append_right (by omega)] at hl hr ⊢
      have e1 : j - Ls.length = 0 := by omega
      have e2 : j - rs.length = 0 := by omega
      have e3 : j - stack.length = 0 := by omega
      rw [e1] at hl; rw [e2] at hr; rw [e3]
      simp only [List.getElem?_cons_zero, Option.some.injEq] at hl hr
      subst hl hr
      exact ⟨_, rfl, h.trans'⟩
    · exfalso
      rw [List.getElem?_eq_none (by simp; omega)] at hl
      cases hl

theorem SolvedDevice.det_at (h : SolvedDevice lib c c' stack mask lr Ls lt er et src kx ky W0 V0 rr rs rt st)
    {j : ℕ} {r : Solved N} (hr : (rr :: (rs ++ [rt]))[j]? = some r) : r.W.det ≠ 0 ∧ r.V.det ≠ 0 := by
  have hm := List.mem_of_getElem? hr
  simp only [List.mem_cons, List.mem_append, List.not_mem_nil, or_false] at hm
  rcases hm with rfl | hm | rfl
  · exact halfSpaceModes_det h.er_ne h.ref_modes
  · obtain ⟨i, hi, rfl⟩ := List.getElem_of_mem hm
    have := (List.forall₂_iff_get.1 h.lay).2 i (by rw [h.lay.length_eq]; exact hi) hi
    exact buildScatmat_det this.scat
  · exact halfSpaceModes_det h.et_ne h.trans_modes

theorem SolvedDevice.positions (h : SolvedDevice lib c c' stack mask lr Ls lt er et src kx ky W0 V0 rr rs rt st) :
    c'.stackPositions = Crystal.devicePositions (Ls.map Layer.depth) := by
  have := h.pos'
  rw [Crystal.positions_device] at this
  exact (Except.ok.inj this).symm

/-- Where a depth falls. -/
def FallsIn (ds : List ℝ) (z : ℝ) (j : ℕ) : Prop :=
  j ≤ ds.length + 1 ∧ (∀ i, i < j → startOf ds i < z) ∧ (j ≤ ds.length → z ≤ startOf ds j)

/-- The coordinate within the medium a depth falls in. -/
noncomputable def localZ (ds : List ℝ) (z : ℝ) (j : ℕ) : ℝ := if j = 0 then z else z - startOf ds (j - 1)

theorem SolvedDevice.locate (hd : StandardDevice c stack mask lr Ls lt er et)
    (h : SolvedDevice lib c c' stack mask lr Ls lt er et src kx ky W0 V0 rr rs rt st)
    (hpos : ∀ l ∈ Ls, 0 ≤ l.depth) {z : ℝ} {j : ℕ} (hz : FallsIn (Ls.map Layer.depth) z j) {l : Layer N}
    {r : Solved N} (hl : (lr :: (Ls ++ [lt]))[j]? = some l) (hr : (rr :: (rs ++ [rt]))[j]? = some r) :
    c'.locateLayer z = .ok (.plain (l.store r), (j : ℤ), ((localZ (Ls.map Layer.depth) z j : ℝ) : EReal)) := by
  obtain ⟨x, hx, hx'⟩ := h.layer_at hl hr
  have hn : c'.globalStacking = some ("Sref" :: (stack ++ ["Strans"])) := by
    rw [h.rest']; exact hd.stacking
  exact Crystal.locateLayer_device h.positions hn (by simpa using hpos) hz.1 hz.2.1 hz.2.2 hx hx'

/-- `_fourier_fields` at a depth whose medium keeps its modes: it answers, and its answer in terms of
the field on the right face of the medium. -/
theorem SolvedDevice.fields (hd : StandardDevice c stack mask lr Ls lt er et)
    (h : SolvedDevice lib c c' stack mask lr Ls lt er et src kx ky W0 V0 rr rs rt st)
    (hpos : ∀ l ∈ Ls, 0 ≤ l.depth) {z : ℝ} {j : ℕ} (hz : FallsIn (Ls.map Layer.depth) z j) {l : Layer N}
    {r : Solved N} (hl : (lr :: (Ls ++ [lt]))[j]? = some l) (hr : (rr :: (rs ++ [rt]))[j]? = some r)
    (hf : l.fields = true) (hm : (true :: (mask ++ [true]))[j]? = some true) {E H : Vec2 N}
    {a b : Vec2 N} (hab : fieldOf rr.W rr.V ⟨a, b⟩ = ⟨E, H⟩) :
    ∃ f x B, c'.fourierFields z E H = .ok f ∧
      fieldOf r.W r.V B = fieldOf W0 V0 x ∧
      f.transverse = fieldOf r.W r.V
        ⟨fun i => clampPhasor (Complex.exp (r.L i *
            ((2 * Real.pi / src.wavelength * (l.depth - localZ (Ls.map Layer.depth) z j) : ℝ) : ℂ))) * B.fwd i,
         fun i => clampPhasor (Complex.exp (-(r.L i *
            ((2 * Real.pi / src.wavelength * (l.depth - localZ (Ls.map Layer.depth) z j) : ℝ) : ℂ)))) * B.bwd i⟩ ∧
      (f.sz, f.uz) = longitudinalFields f.sx f.sy f.ux f.uy kx ky r.IC ∧
      ∀ (p m q : Port (Fin N ⊕ Fin N)), p.fwd = a → q.bwd = 0 →
        ((Chain ((rr.S :: (rs.map Solved.S ++ [rt.S])).take (j + 1)) p m ∧
          Chain ((rr.S :: (rs.map Solved.S ++ [rt.S])).drop (j + 1)) m q) ↔
          (m = x ∧ p.bwd = st.Stot.s11 *ᵥ a ∧ q.fwd = st.Stot.s21 *ᵥ a)) := by
  have hlen : Ls.length = rs.length := h.lay.length_eq
  have hlen' : stack.length = Ls.length := by
    have := h.lay'.length_eq
    rw [List.length_zip, ← hlen, min_self] at this
    exact this
  have hml := hd.mask_len
  have hjl : j < (rr.S :: (rs.map Solved.S ++ [rt.S])).length := by
    have := (List.getElem?_eq_some_iff.1 hr).1
    simpa using this
  obtain ⟨hmj, hmj'⟩ := List.getElem?_eq_some_iff.1 hm
  obtain ⟨Sl, Sr, x, hSl, hSr, hx, hx'⟩ := C06_stack_interior (by simp [hml, hlen', hlen]) h.stack_ok hjl hmj' a
  obtain ⟨kz, hk⟩ := h.kv
  obtain ⟨hW, hV⟩ := h.det_at hr
  obtain ⟨hWr, hVr⟩ := halfSpaceModes_det h.er_ne h.ref_modes
  obtain ⟨B, hB⟩ := fieldOf_surjective hW hV (fieldOf W0 V0 ⟨x.1, x.2⟩)
  obtain ⟨f, f1, f2, f3⟩ := fourierFields_ok (E := E) (H := H) (b := b) (h.locate hd hpos hz hl hr) hf
    (by rw [h.rest']; exact h.source)
    (by rw [h.rest']; exact hk) h.gap h.ref' hd.ref_fields (by rw [h.rest']) hSl hSr hWr hVr hW hV hab hx hB.symm
  exact ⟨f, ⟨x.1, x.2⟩, B, f1, hB.symm, f2, f3, hx'⟩

end

theorem clampPhasor_of_le {x : ℂ} (h : ‖x‖ ≤ 10 ^ 14) : clampPhasor x = x := by
  rw [clampPhasor, if_neg (not_lt.2 h)]

/-- Every depth falls somewhere. -/
theorem exists_fallsIn {ds : List ℝ} (hd : ∀ d ∈ ds, 0 ≤ d) (z : ℝ) : ∃ j, FallsIn ds z j := by
  have hmono := startOf_mono hd
  rcases le_or_gt z 0 with h0 | h0
  · exact ⟨0, by omega, by omega, fun _ => by rwa [startOf_zero]⟩
  rcases le_or_gt z ds.sum with h1 | h1
  · obtain ⟨i, ⟨h2, h3, h4⟩, -⟩ := Crystal.exists_interval hd h0 h1
    exact ⟨i + 1, by omega, fun k hk => (hmono (by omega)).trans_lt h3, fun _ => h4⟩
  · refine ⟨ds.length + 1, by omega, fun k hk => (hmono (show k ≤ ds.length by omega)).trans_lt ?_, by omega⟩
    rwa [startOf_length]

theorem fallsIn_requested {ds : List ℝ} {mask : List Bool} {z : ℝ} (hd : ∀ d ∈ ds, 0 ≤ d)
    (hm : mask.length = ds.length) (hz : RequestedAt ds mask z) :
    ∃ j, FallsIn ds z j ∧ (true :: (mask ++ [true]))[j]? = some true := by
  have hmono := startOf_mono hd
  rcases hz with h | h | ⟨i, h1, h2, h3⟩
  · exact ⟨0, ⟨by omega, by omega, fun _ => by rwa [startOf_zero]⟩, rfl⟩
  · refine ⟨ds.length + 1, ⟨by omega, fun k hk => (hmono (show k ≤ ds.length by omega)).trans_lt ?_, by omega⟩, ?_⟩
    · rwa [startOf_length]
    · rw [List.getElem?_cons_succ, List.getElem?_append_right (by omega)]; simp [hm]
  · have hi := (List.getElem?_eq_some_iff.1 h1).1
    refine ⟨i + 1, ⟨by omega, fun k hk => (hmono (by omega)).trans_lt h2, fun _ => h3⟩, ?_⟩
    rw [List.getElem?_cons_succ, List.getElem?_append_left hi, h1]

/-- A layer whose mask entry is true has its fields flag set. -/
theorem zipWith_fields {stack : List String} {fm : List Bool} {Ls Ls' : List (Layer N)}
    (hL : Ls' = List.zipWith (fun x l => { l with fields := l.fields || Crystal.requested x (stack.zip fm) }) stack Ls)
    {i : ℕ} {l : Layer N} (hl : Ls'[i]? = some l) (hm : fm[i]? = some true) : l.fields = true := by
  subst hL
  rw [List.getElem?_zipWith] at hl
  cases hs : stack[i]? with
  | none => simp [hs] at hl
  | some x =>
    cases hl' : Ls[i]? with
    | none => simp [hs, hl'] at hl
    | some l0 =>
      simp only [hs, hl', Option.some.injEq] at hl
      subst hl
      have : Crystal.requested x (stack.zip fm) = true := by
        rw [Crystal.requested, List.any_eq_true]
        refine ⟨(x, true), ?_, by simp⟩
        refine List.mem_of_getElem? (i := i) ?_
        rw [List.getElem?_zip_eq_some]
        exact ⟨hs, hm⟩
      simp [this]

theorem depths_congr {Ls Ls' : List (Layer N)}
    (h : List.Forall₂ (fun l l' => l'.form = l.form ∧ l'.depth = l.depth) Ls Ls') :
    Ls'.map Layer.depth = Ls.map Layer.depth := by
  induction h with
  | nil => rfl
  | cons h' _ ih => rw [List.map_cons, List.map_cons, h'.2, ih]

end Khepri
