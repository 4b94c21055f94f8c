import Verif.Spec.AbsorbTwisted
import Verif.Lemmas.AbsorbDevice
import Verif.Lemmas.Twisted
import Verif.Lemmas.ExampleTwistedDevice
import Verif.Lemmas.ExampleTwistedRun

/-!
# Strictly absorbing layers of two lattices
-/

set_option linter.unusedSectionVars false

namespace Khepri

open Matrix

variable {M : ℕ}

theorem spread_strict {N kind : ℕ} {C1 : Matrix (Fin N) (Fin N) ℂ} {C : Matrix (Fin (N * N)) (Fin (N * N)) ℂ}
    (h : Spread kind C1 C) (h1 : StrictlyAbsorbingMat C1) : StrictlyAbsorbingMat C := by
  intro u hu
  rw [spread_iff.1 h, bd_quad, Complex.im_sum]
  have hle : ∀ i ∈ (Finset.univ : Finset (Fin N)), (star (fun r => u (pairEquiv N kind (r, i))) ⬝ᵥ C1 *ᵥ
      fun r => u (pairEquiv N kind (r, i))).im ≤ 0 := by
    intro i _
    by_cases hz : (fun r => u (pairEquiv N kind (r, i))) = 0
    · rw [hz]; simp
    · exact (h1 _ hz).le
  refine lt_of_not_ge fun hge => hu ?_
  have h0 := (Finset.sum_eq_zero_iff_of_nonpos hle).1 (le_antisymm (Finset.sum_nonpos hle) hge)
  funext j
  obtain ⟨⟨r, i⟩, rfl⟩ := (pairEquiv N kind).surjective j
  by_contra hne
  have := h1 (fun r => u (pairEquiv N kind (r, i))) fun hz => hne (congrFun hz r)
  rw [h0 i (Finset.mem_univ _)] at this
  exact lt_irrefl _ this

theorem TwistedLayer.strict_perm {jv1 : ℝ → ℝ} {lhs rhs : Expansion M} (hM : 0 < M) {l : TwistedLayer M}
    (h : l.strictlyAbsorbing jv1 lhs rhs) {C : Matrix (Fin (M * M)) (Fin (M * M)) ℂ}
    (hC : l.Permittivity jv1 lhs rhs C) : StrictlyAbsorbingMat C := by
  cases l with
  | uniform eps d => rw [show C = eps • 1 from hC]; exact strict_uniform h
  | first l =>
    obtain ⟨C1, h1, h2⟩ := hC
    exact spread_strict (first_spread h2) (Khepri.strict_perm hM h h1)
  | second l =>
    obtain ⟨C1, h1, h2⟩ := hC
    exact spread_strict (second_spread h2) (Khepri.strict_perm hM h h1)

/-- An extended layer can be solved when its base can at every shifted wave vector. -/
theorem ext_solve_exists {lib : NumLib} {x : Expansion (M * M)} {base : Layer M} {kind : ℕ} (hkind : kind < 2)
    (hM : 0 < M) {gs : Fin M → R2} {depth wl : ℝ} {f : Bool} {kp : ℂ × ℂ}
    {S0 : Option (SMat (Fin (M * M) ⊕ Fin (M * M)))} {W V W0 V0 : Option (Mat2 (M * M))} {L : Option (Vec2 (M * M))}
    {IC : Option (ICVal (M * M))}
    (h : ∀ i, ∃ r : Solved M, base.form.solve lib base.expansion base.depth (shiftKp (gs i) kp) wl = .ok r) :
    ∃ (x' : ExtLayer (M * M)) (S : SMat (Fin (M * M) ⊕ Fin (M * M))),
      AnyLayer.solve lib kp wl (.ext ⟨M, rfl, x, base, kind, List.ofFn gs, depth, f, S0, W, V, W0, V0, L, IC⟩) =
        .ok (.ext x') ∧ x'.S = some S := by
  choose r hr using h
  choose w hw using fun i => Form.solve_gap (hr i)
  have hrs : List.Forall₂ (fun g r => base.form.solve lib base.expansion base.depth (shiftKp g kp) wl = .ok r)
      (List.ofFn gs) (List.ofFn r) := by
    rw [List.forall₂_iff_get]
    refine ⟨by simp, fun i h1 h2 => ?_⟩
    simp only [List.get_eq_getElem, List.getElem_ofFn]
    exact hr _
  have hws : List.Forall₂ (fun g w => gapAt base.expansion kp wl g = .ok w) (List.ofFn gs) (List.ofFn w) := by
    rw [List.forall₂_iff_get]
    refine ⟨by simp, fun i h1 h2 => ?_⟩
    simp only [List.get_eq_getElem, List.getElem_ofFn]
    exact hw _
  have hs := (ExtLayer.solve_eq_ok (lib := lib) (x := x) (base := base) (mode := kind)
    (gs := List.ofFn gs) (depth := depth) (f := f) (S := S0) (W := W) (V := V) (W0 := W0) (V0 := V0) (L := L)
    (IC := IC) (kp := kp) (wl := wl)).2
    ⟨List.ofFn r, List.ofFn w, hrs, hws, by simp [hM.ne'], hkind, by simp, rfl⟩
  exact ⟨_, _, any_ext hs, rfl⟩

/-- Orders of a base lattice at a shifted wave vector are orders of the joint space. -/
theorem joint_order {x : Expansion (M * M)} {base : Expansion M} {kind : ℕ} {gs : Fin M → R2}
    (h : Joint x base kind gs) (kp : ℝ × ℝ) (wl : ℝ) (i r : Fin M) :
    orderKx base (kp.1 + (gs i).1, kp.2 + (gs i).2) wl r = orderKx x kp wl (jointPos kind i r) ∧
    orderKy base (kp.1 + (gs i).1, kp.2 + (gs i).2) wl r = orderKy x kp wl (jointPos kind i r) := by
  constructor
  · simp only [orderKx, h i r]; ring
  · simp only [orderKy, h i r]; ring

/-- A strictly absorbing layer of a twisted stack can be solved. -/
theorem twisted_layer_exists {lib : NumLib} (he : ∀ n, EigContract (lib.eig n)) {tag : ℕ} {lhs rhs : Expansion M}
    {se : SumExpansion M} (hse : lhs.add tag rhs = .ok se) (hne : lhs.tag ≠ rhs.tag) {c : Crystal (M * M)}
    (hc : c.expansion = se.exp) {kp : ℝ × ℝ} {wl : ℝ} (hwl : 0 < wl)
    (hg : ∀ i, 1 - orderKx se.exp kp wl i ^ 2 - orderKy se.exp kp wl i ^ 2 ≠ 0)
    {x : String} {l : TwistedLayer M} (hr : l.Registered se c x) {a : AnyLayer (M * M)} (ha : c.layers x = some a)
    (hs : l.strictlyAbsorbing lib.jv1 lhs rhs) (hd : 0 < l.depth) (hdiag : l.diagonalised lib lhs rhs kp wl)
    (b : Bool) :
    ∃ a' S, (a.enable b).solve lib ((kp.1 : ℂ), (kp.2 : ℂ)) wl = .ok a' ∧ a'.S = some S := by
  have hM := add_pos hse
  obtain ⟨-, -, hsl, hsr, -⟩ := add_eq_ok hse
  have hshift : ∀ g : R2, shiftKp g ((kp.1 : ℂ), (kp.2 : ℂ)) =
      (((kp.1 + g.1 : ℝ) : ℂ), ((kp.2 + g.2 : ℝ) : ℂ)) := by
    intro g; simp [shiftKp, add_comm]
  cases l with
  | uniform eps d =>
    obtain ⟨l, hl, hf, rfl, hle⟩ := hr
    rw [hl, Option.some.injEq] at ha
    subst ha
    obtain ⟨r, hr⟩ := strict_solve (he _) (Nat.mul_pos hM hM) hwl hg (form := .uniform eps) hs trivial hd
    refine ⟨.plain (Layer.store { l with fields := l.fields || b } r), r.S, ?_, rfl⟩
    rw [AnyLayer.enable]
    exact AnyLayer.solve_plain.2 ⟨r, by simpa only [hf, hle, hc, TwistedLayer.depth] using hr, rfl⟩
  | first l =>
    obtain ⟨hle, hf, e, hmk, hx⟩ := hr
    rw [hx, Option.some.injEq] at ha
    subst ha
    rw [ExtLayer.make, hle, if_pos rfl, Except.ok.injEq] at hmk
    have hj := joint_lhs hse
    subst hmk
    obtain ⟨x', S, h1, h2⟩ := ext_solve_exists (lib := lib) (x := se.exp) (base := { l with fields := l.fields || b }) (kind := 1)
      (by norm_num) hM (gs := se.rhs.g) (depth := l.depth) (f := l.fields || b) (kp := ((kp.1 : ℂ), (kp.2 : ℂ))) (wl := wl)
      (S0 := none) (W := none) (V := none) (W0 := none) (V0 := none) (L := none) (IC := none) fun i => by
        rw [hshift, hsr]
        simp only [hle, hsl]
        refine strict_solve (he _) hM hwl (kp := (kp.1 + (rhs.g i).1, kp.2 + (rhs.g i).2)) (fun r => ?_) hs (hdiag i) hd
        obtain ⟨e1, e2⟩ := joint_order hj kp wl i r
        rw [e1, e2]; exact hg _
    exact ⟨_, S, h1, h2⟩
  | second l =>
    obtain ⟨hle, hf, e, hmk, hx⟩ := hr
    rw [hx, Option.some.injEq] at ha
    subst ha
    rw [ExtLayer.make, hle, if_neg (by rw [hsl, hsr]; exact hne), if_pos rfl, Except.ok.injEq] at hmk
    have hj := joint_rhs hse
    subst hmk
    obtain ⟨x', S, h1, h2⟩ := ext_solve_exists (lib := lib) (x := se.exp) (base := { l with fields := l.fields || b }) (kind := 0)
      (by norm_num) hM (gs := se.lhs.g) (depth := l.depth) (f := l.fields || b) (kp := ((kp.1 : ℂ), (kp.2 : ℂ))) (wl := wl)
      (S0 := none) (W := none) (V := none) (W0 := none) (V0 := none) (L := none) (IC := none) fun i => by
        rw [hshift, hsl]
        simp only [hle, hsr]
        refine strict_solve (he _) hM hwl (kp := (kp.1 + (lhs.g i).1, kp.2 + (lhs.g i).2)) (fun r => ?_) hs (hdiag i) hd
        obtain ⟨e1, e2⟩ := joint_order hj kp wl i r
        rw [e1, e2]; exact hg _
    exact ⟨_, S, h1, h2⟩

/-- All layers of a strictly absorbing twisted stack can be solved, and take power. -/
theorem twisted_chain_exists {lib : NumLib} (he : ∀ n, EigContract (lib.eig n)) {tag : ℕ} {lhs rhs : Expansion M}
    {se : SumExpansion M} (hse : lhs.add tag rhs = .ok se) (hne : lhs.tag ≠ rhs.tag) {c : Crystal (M * M)}
    (hc : c.expansion = se.exp) {kp : ℝ × ℝ} {wl : ℝ} (hwl : 0 < wl)
    (hg : ∀ i, 1 - orderKx se.exp kp wl i ^ 2 - orderKy se.exp kp wl i ^ 2 ≠ 0)
    (req : String → Bool) {stack : List String} {Ls : List (TwistedLayer M)} {As : List (AnyLayer (M * M))}
    (hr : List.Forall₂ (TwistedLayer.Registered se c) stack Ls)
    (ha : List.Forall₂ (fun x a => c.layers x = some a) stack As)
    (hL : ∀ l ∈ Ls, 0 < l.depth ∧ l.strictlyAbsorbing lib.jv1 lhs rhs ∧ l.diagonalised lib lhs rhs kp wl) :
    ∃ As' Ss, List.Forall₂ (fun a a' => AnyLayer.solve lib ((kp.1 : ℂ), (kp.2 : ℂ)) wl a = .ok a')
        (List.zipWith (fun x a => AnyLayer.enable (req x) a) stack As) As' ∧
      List.Forall₂ (fun (a' : AnyLayer (M * M)) S => a'.S = some S) As' Ss ∧
      ∀ S ∈ Ss, TakesPower (gapFlux (orderKx se.exp kp wl) (orderKy se.exp kp wl)) S := by
  have hM := add_pos hse
  obtain ⟨kz, hkv⟩ := real_kVectors se.exp hwl.ne' kp
  obtain ⟨V0, h0⟩ := gap_exists hg
  have hk0 : 0 < 2 * Real.pi / wl := by have := Real.pi_pos; positivity
  induction hr generalizing As with
  | nil =>
    cases ha
    exact ⟨[], [], .nil, .nil, by simp⟩
  | @cons x l _ _ hr _ ih =>
    cases ha with
    | cons ha hat =>
      obtain ⟨As', Ss, i1, i2, i3⟩ := ih hat fun l hl => hL l (by simp [hl])
      obtain ⟨hd, hs, hdi⟩ := hL l (by simp)
      obtain ⟨a', S, p1, p2⟩ := twisted_layer_exists he hse hne hc hwl hg hr ha hs hd hdi (req x)
      obtain ⟨C, L, q1, q2, q3, q4, q5, -⟩ := twisted_layer he hse hne hc hkv h0 hr ha _ p1 p2
      refine ⟨a' :: As', S :: Ss, .cons p1 i1, .cons p2 i2, fun S' hS' => ?_⟩
      rcases List.mem_cons.1 hS' with rfl | hS'
      · exact layer_takesPower (TwistedLayer.strict_perm hM hs q1) h0 q5 (by rw [q3]; exact mul_pos hd hk0) q4
      · exact i3 S' hS'

theorem twisted_flux_strict {jv1 : ℝ → ℝ} {lhs rhs : Expansion M} {kx ky : Fin (M * M) → ℝ} {k0 : ℝ}
    {Ls : List (TwistedLayer M)} {Ms : List (Mat2 (M * M) × Mat2 (M * M) × ℝ)}
    (h : TwistedEquations jv1 lhs rhs kx ky k0 Ls Ms)
    (ha : ∀ l ∈ Ls, 0 ≤ l.depth * k0 ∧ ∀ C, l.Permittivity jv1 lhs rhs C → AbsorbingMat C)
    (hs : ∃ l ∈ Ls, 0 < l.depth * k0 ∧ ∀ C, l.Permittivity jv1 lhs rhs C → StrictlyAbsorbingMat C)
    {F G : Tang (Fin (M * M) ⊕ Fin (M * M))} (hc : MaxwellChain Ms F G) (hle : fluxZ F ≤ fluxZ G) :
    F.E = 0 ∧ F.H = 0 := by
  unfold TwistedEquations at h
  induction h generalizing F with
  | nil => simp at hs
  | @cons l X _ _ h1 hT ih =>
    obtain ⟨C, hC, hd, rfl⟩ := h1
    obtain ⟨K, hK, hc⟩ := hc
    have hK' := maxwellTransfer_iff_flow.1 hK
    simp only at hK'
    have hG := twisted_flux_le hT (fun l hl => ha l (by simp [hl])) hc
    obtain ⟨l', hl', h0, hst⟩ := hs
    rcases List.mem_cons.1 hl' with rfl | hl'
    · refine power_flow_strict (kx := kx) (ky := ky) (hst C hC) h0 ?_
      rw [← hK']; linarith
    · have hFK : fluxZ K ≤ fluxZ F := by
        obtain ⟨h0', habs⟩ := ha l (by simp)
        have := power_flow_antitone (kx := kx) (ky := ky) hd (habs C hC) F h0'
        rw [hK']
        simpa [flow_zero] using this
      obtain ⟨z1, z2⟩ := ih (fun l hl => ha l (by simp [hl])) ⟨l', hl', h0, hst⟩ hc (by linarith)
      rw [hK'] at z1 z2
      exact flow_eq_zero z1 z2

end Khepri
