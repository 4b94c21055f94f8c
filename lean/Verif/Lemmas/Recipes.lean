import Verif.Spec.Recipes
import Verif.Lemmas.Symmetry
import Verif.Lemmas.ExampleRun

set_option linter.unusedSectionVars false

namespace Khepri

open Matrix

theorem assembled_chain {n : Type} [Fintype n] [DecidableEq n] {l : List (SMat n)} {T : SMat n} (h : Assembled l T) :
    ∀ p q, Scatters T p q ↔ Chain l p q := by
  induction h with
  | one S => intro p q; simp [Chain]
  | join _ _ hr ih1 ih2 =>
    intro p q
    rw [scatters_redheffer hr, chain_append]
    simp only [ih1, ih2]

theorem except_map_bind {α β γ : Type} (x : Py α) (f : α → Py β) (g : β → γ) :
    (x >>= f).map g = x >>= fun a => (f a).map g := by
  cases x <;> rfl

theorem forall₂_split {α β : Type} {R : α → β → Prop} : ∀ {l l' : List α} {m : List β}, List.Forall₂ R (l ++ l') m →
    ∃ m1 m2, m = m1 ++ m2 ∧ List.Forall₂ R l m1 ∧ List.Forall₂ R l' m2
  | [], _, m, h => ⟨[], m, rfl, .nil, h⟩
  | _ :: _, _, _, .cons h t => by
    obtain ⟨m1, m2, rfl, h1, h2⟩ := forall₂_split t
    exact ⟨_ :: m1, m2, rfl, .cons h h1, h2⟩

theorem forall₂_mem_right {α β : Type} {R : α → β → Prop} {l : List α} {m : List β} (h : List.Forall₂ R l m) {b : β}
    (hb : b ∈ m) : ∃ a, a ∈ l ∧ R a b := by
  induction h with
  | nil => simp at hb
  | cons h _ ih =>
    rcases List.mem_cons.1 hb with rfl | hb
    · exact ⟨_, by simp, h⟩
    · obtain ⟨a, h1, h2⟩ := ih hb
      exact ⟨a, by simp [h1], h2⟩

variable {N : ℕ}

/-- What of the result of `Layer.solve` the stand-alone functions return. -/
def Solved.scattering (r : Solved N) : LayerScattering N := ⟨r.S, r.L, r.W, r.V⟩

theorem uniform_scattering (lib : NumLib) (e : Expansion N) (kp : ℂ × ℂ) (wl : ℝ) (eps : ℂ) (d : ℝ) :
    scatteringUniformLayer e kp wl eps d = ((Form.uniform eps).solve lib e d kp wl).map Solved.scattering := by
  simp only [scatteringUniformLayer, Form.solve, except_map_bind]
  congr 1; funext ⟨kx, ky, kz⟩
  dsimp only
  try simp only [except_map_bind]
  congr 1; funext ⟨W0, V0⟩
  dsimp only
  try simp only [except_map_bind]
  by_cases he : eps = 0
  · simp [solveUniformLayer, he, throw, throwThe, MonadExceptOf.throw, error_bind]
  · congr 1; funext ⟨W, V, L⟩
    dsimp only
    try simp only [except_map_bind]
    congr 1; funext S
    simp [inverseEps, he, ok_bind, pure, Except.pure, Solved.scattering, Except.map]

theorem structured_scattering (lib : NumLib) (e : Expansion N) (kp : ℂ × ℂ) (wl : ℝ) (map : Arr2) (d : ℝ) :
    scatteringStructuredLayer lib e kp wl map d = ((Form.fft map).solve lib e d kp wl).map Solved.scattering := by
  simp only [scatteringStructuredLayer, Form.solve, except_map_bind]
  congr 1; funext ⟨kx, ky, kz⟩
  dsimp only
  try simp only [except_map_bind]
  congr 1; funext ⟨W0, V0⟩
  dsimp only
  try simp only [except_map_bind]
  congr 1; funext C
  simp only [solveWithC, except_map_bind]
  by_cases hd : C.det = 0
  · simp [solveStructuredLayer, structuredP, npSolve, npInv, hd, error_bind]
  · rw [npInv_ok hd, ok_bind]
    congr 1

theorem standAlone_solve {lib : NumLib} {kp : ℂ × ℂ} {wl : ℝ} {l : Layer N} {S : SMat (Fin N ⊕ Fin N)}
    (h : StandAlone lib kp wl l S) : ∃ r, l.form.solve lib l.expansion l.depth kp wl = .ok r ∧ r.S = S := by
  obtain ⟨q, rfl, h⟩ := h
  cases hf : l.form with
  | uniform eps =>
    rw [hf] at h
    dsimp only at h
    rw [uniform_scattering lib, map_eq_ok] at h
    obtain ⟨r, h1, rfl⟩ := h
    exact ⟨r, h1, rfl⟩
  | fft map =>
    rw [hf] at h
    dsimp only at h
    rw [structured_scattering lib, map_eq_ok] at h
    obtain ⟨r, h1, rfl⟩ := h
    exact ⟨r, h1, rfl⟩
  | analytical a b => rw [hf] at h; exact h.elim
  | halfInc a => rw [hf] at h; exact h.elim
  | halfTrn a => rw [hf] at h; exact h.elim

/-- The total matrix of a solved device, in terms of what `Layer.solve` computes for its layers. -/
theorem device_matrices {lib : NumLib} {order : List String} {c c' : Crystal N} {stack : List String}
    {mask : List Bool} {lr lt : Layer N} {Ls : List (Layer N)} {er et : ℂ}
    (hd : StandardDevice c stack mask lr Ls lt er et)
    (ho : SetOrder ("Sref" :: (stack ++ ["Strans"])) order) (h : c.solve lib order = .ok c') :
    ∃ src rr rs rt st, c.source = some src ∧
      (Form.halfInc er).solve lib c.expansion 0 src.kp src.wavelength = .ok rr ∧
      List.Forall₂ (fun (l : Layer N) r => l.form.solve lib l.expansion l.depth src.kp src.wavelength = .ok r) Ls rs ∧
      (Form.halfTrn et).solve lib c.expansion 0 src.kp src.wavelength = .ok rt ∧ c'.stacked = some st ∧
      ∀ p q, Scatters st.Stot p q ↔ Chain (rr.S :: (rs.map Solved.S ++ [rt.S])) p q := by
  obtain ⟨src, names, ls, pos, Ss, st, hs, hn, h1, h2, hls, hpos, hSs, hst, hc⟩ :=
    (Crystal.solve_eq_ok ho.1).1 h
  rw [hd.stacking, Option.some.injEq] at hn
  subst hn
  have solved : ∀ x l a, x ∈ order → c.layers x = some (.plain l) → c'.layers x = some a →
      ∃ r, l.form.solve lib l.expansion l.depth src.kp src.wavelength = .ok r ∧ a.S = some r.S := by
    intro x l a hx hl ha
    obtain ⟨d, d', hd1, hd2, hd3⟩ := h1 x hx
    rw [hl, Option.some.injEq] at hd1
    subst hd1
    rw [ha, Option.some.injEq] at hd3
    subst hd3
    obtain ⟨r, hr, rfl⟩ := AnyLayer.solve_plain.1 hd2
    exact ⟨r, hr, rfl⟩
  cases hls with
  | @cons _ a _ ls' ha hls' =>
    cases hSs with
    | @cons _ Sa _ Ss' hSa hSs' =>
    obtain ⟨lsm, lst, rfl, hm, ht⟩ := forall₂_split hls'
    cases ht with
    | @cons _ b _ _ hb hnil =>
    cases hnil
    obtain ⟨Sm, Sb, rfl, hSm, hSt⟩ := forall₂_split hSs'
    cases hSt with
    | @cons _ Sc _ _ hSc hnil =>
    cases hnil
    obtain ⟨rr, hrr, eS⟩ := solved _ _ _ ((ho.2 _).2 (by simp)) hd.ref ha
    obtain ⟨rt, hrt, eT⟩ := solved _ _ _ ((ho.2 _).2 (by simp)) hd.trans hb
    rw [hSa, Option.some.injEq] at eS
    rw [hSc, Option.some.injEq] at eT
    have mid : ∀ (stk : List String) (Ls : List (Layer N)) (lsm : List (AnyLayer N)) (Sm : List (SMat (Fin N ⊕ Fin N))),
        (∀ x ∈ stk, x ∈ order) →
        List.Forall₂ (fun x l => c.layers x = some (.plain l) ∧ l.form.isLayer ∧ l.expansion = c.expansion) stk Ls →
        List.Forall₂ (fun x l => c'.layers x = some l) stk lsm →
        List.Forall₂ (fun (l : AnyLayer N) S => l.S = some S) lsm Sm → ∃ rs : List (Solved N),
        List.Forall₂ (fun (l : Layer N) r => l.form.solve lib l.expansion l.depth src.kp src.wavelength = .ok r) Ls rs ∧
        rs.map Solved.S = Sm := by
      intro stk
      induction stk with
      | nil => intro Ls lsm Sm _ k1 k2 k3; cases k1; cases k2; cases k3; exact ⟨[], .nil, rfl⟩
      | cons x stk ih =>
        intro Ls lsm Sm hx k1 k2 k3
        cases k1 with
        | cons k1 t1 =>
        cases k2 with
        | cons k2 t2 =>
        cases k3 with
        | cons k3 t3 =>
        obtain ⟨rs, j1, j2⟩ := ih _ _ _ (fun y hy => hx y (by simp [hy])) t1 t2 t3
        obtain ⟨r, i1, i2⟩ := solved x _ _ (hx x (by simp)) k1.1 k2
        rw [k3, Option.some.injEq] at i2
        exact ⟨r :: rs, .cons i1 j1, by simp [j2, i2]⟩
    obtain ⟨rs, hrs, eM⟩ := mid _ _ _ _ (fun x hx => (ho.2 x).2 (by simp [hx])) hd.layers hm hSm
    rw [hd.ref_form, hd.ref_exp, hd.ref_depth] at hrr
    rw [hd.trans_form, hd.trans_exp, hd.trans_depth] at hrt
    refine ⟨src, rr, rs, rt, st, hs, hrr, hrs, hrt, by rw [hc], ?_⟩
    rw [eM, ← eS, ← eT]
    have hlen : c.retainMask.length = (Sa :: (Sm ++ [Sc])).length := by
      rw [hd.retain, ← eM]
      simp [hd.mask_len, hd.layers.length_eq, hrs.length_eq]
    obtain ⟨k1, -⟩ := (stackLayers_eq_ok hlen (by simp)).1 hst
    intro p q
    rw [scatters_leftFold k1]
    simp [scatters_id]

end Khepri
