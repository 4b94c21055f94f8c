import Verif.Lemmas.TmatSymmetry
import Verif.Props.TmatReciprocity

/-!
# C101: T-matrix devices moved or turned by half a turn
-/

namespace Khepri

open Matrix Complex

variable {pw : ℕ × ℕ} {a1 a2 : R2} {ei ee : PyNum} {l : TLattice} {jv1 : ℝ → ℝ} {wl : ℝ} {a b : ℝ}
  {islands : List (TShape × ℂ)} {host : ℂ}

/-- **C101.** Moving all the islands of a layer by the same vector changes only the phases of the orders. -/
theorem C101_moved (h : TLattice.make pw a1 a2 ei ee = .ok l) (hp : pw.1 = pw.2 ∨ pw.2 = 1) (h0 : 0 < pw.1) (hb : Periods l.b)
    {v : R2} {depth : ℝ} {k k' : ℕ} {S S' : Matrix (TIdx l.shape) (TIdx l.shape) ℂ}
    (hS : tmatScattering jv1 l islands host wl (↑a, ↑b) depth k = .ok S)
    (hS' : tmatScattering jv1 l (islands.map fun d => (d.1.move v, d.2)) host wl (↑a, ↑b) depth k' = .ok S') :
    TCarried id (l.movePhase v) S S' := by
  have hs := (TLattice.make_shape_iff h h0).2 (hp.imp_right le_of_eq)
  obtain ⟨U, V, -, hV, -⟩ := TLattice.layer_S h hs hS
  exact TLattice.layer_carry h hs (fun _ => rfl) (σ := 1) (by norm_num) (fun k => by simp) (TLattice.coupling_move h hs hb v) hS hV hS' hV
    (TLattice.V_move hV)

/-- **C101.** The interface does not depend on the origin. -/
theorem C101_interface_moved (v : R2) {S : Matrix (TIdx l.shape) (TIdx l.shape) ℂ} (hS : tmatInterface l wl (↑a, ↑b) = .ok S)
    {Vi Ve : Matrix (TIdx l.shape) (TIdx l.shape) ℂ} (hi : l.V l.epsI wl (↑a, ↑b) = .ok Vi)
    (he : l.V l.epsE wl (↑a, ↑b) = .ok Ve) : TCarried id (l.movePhase v) S S :=
  TLattice.interface_carry (fun _ => rfl) hS hi he hS hi he (TLattice.V_move hi) (TLattice.V_move he)

/-- **C101.** Turning all the islands of a layer by half a turn, and the in-plane wave vector with them, exchanges opposite
orders. -/
theorem C101_half_turn (h : TLattice.make pw a1 a2 ei ee = .ok l) (hp : pw.1 = pw.2 ∨ pw.2 = 1) (ho : pw.1 % 2 = 1)
    {depth : ℝ} {k k' : ℕ} {S S' : Matrix (TIdx l.shape) (TIdx l.shape) ℂ}
    (hS : tmatScattering jv1 l islands host wl (↑a, ↑b) depth k = .ok S)
    (hS' : tmatScattering jv1 l (islands.map fun d => (d.1.halfTurn, d.2)) host wl (((-a : ℝ) : ℂ), ((-b : ℝ) : ℂ)) depth k'
      = .ok S') :
    TCarried Fin.rev (l.flip (↑a, ↑b)) S S' := by
  have hs := (TLattice.make_shape_iff h (by omega)).2 (hp.imp_right le_of_eq)
  have h2 : pw.2 % 2 = 1 := by rcases hp with hp | hp <;> omega
  obtain ⟨U, V, -, hV, -⟩ := TLattice.layer_S h hs hS
  obtain ⟨U', V', -, hV', -⟩ := TLattice.layer_S h hs hS'
  refine TLattice.layer_carry h hs Fin.rev_rev (σ := -1) (by norm_num) (fun k => ?_) (fun f i j => ?_) hS hV hS' hV'
    (TLattice.V_half h hs ho h2 hV hV')
  · have := TLattice.rev_wave (a := a) (b := b) h hs ho h2 k
    simp only [TLattice.wave, neg_one_mul]
    exact this
  · rw [mul_one, one_mul, TLattice.coupling_half h hs ho h2]

/-- **C101.** So does the interface. -/
theorem C101_interface_half_turn (h : TLattice.make pw a1 a2 ei ee = .ok l) (hp : pw.1 = pw.2 ∨ pw.2 = 1) (ho : pw.1 % 2 = 1)
    {S Vi Ve S' Vi' Ve' : Matrix (TIdx l.shape) (TIdx l.shape) ℂ}
    (hS : tmatInterface l wl (↑a, ↑b) = .ok S) (hi : l.V l.epsI wl (↑a, ↑b) = .ok Vi) (he : l.V l.epsE wl (↑a, ↑b) = .ok Ve)
    (hS' : tmatInterface l wl (((-a : ℝ) : ℂ), ((-b : ℝ) : ℂ)) = .ok S')
    (hi' : l.V l.epsI wl (((-a : ℝ) : ℂ), ((-b : ℝ) : ℂ)) = .ok Vi')
    (he' : l.V l.epsE wl (((-a : ℝ) : ℂ), ((-b : ℝ) : ℂ)) = .ok Ve') : TCarried Fin.rev (l.flip (↑a, ↑b)) S S' := by
  have hs := (TLattice.make_shape_iff h (by omega)).2 (hp.imp_right le_of_eq)
  have h2 : pw.2 % 2 = 1 := by rcases hp with hp | hp <;> omega
  exact TLattice.interface_carry Fin.rev_rev hS hi he hS' hi' he' (TLattice.V_half h hs ho h2 hi hi')
    (TLattice.V_half h hs ho h2 he he')

section Cascade
variable {g : Type} [Fintype g] [DecidableEq g] {ρ : g → g} {d : g → ℂ}
  {S0 S1 Sint S S0' S1' Sint' S' : Matrix ((g ⊕ g) ⊕ (g ⊕ g)) ((g ⊕ g) ⊕ (g ⊕ g)) ℂ}

/-- **C101.** The same then holds of devices: layers, then the interface. -/
theorem C101_device (hρ : ∀ k, ρ (ρ k) = k) {layers layers' : List (Matrix ((g ⊕ g) ⊕ (g ⊕ g)) ((g ⊕ g) ⊕ (g ⊕ g)) ℂ)}
    (h0 : TCarried ρ d S0 S0') (hl : List.Forall₂ (TCarried ρ d) layers layers') (hint : TCarried ρ d Sint Sint')
    (h1 : layers.foldlM multS S0 = .ok S1) (h : multS S1 Sint = .ok S)
    (h1' : layers'.foldlM multS S0' = .ok S1') (h' : multS S1' Sint' = .ok S') : TCarried ρ d S S' := by
  refine carried_cascade hρ ?_ hint h h'
  clear h h' hint
  induction hl generalizing S0 S0' with
  | nil => cases h1; cases h1'; exact h0
  | cons hx _ ih =>
    rw [List.foldlM_cons, bind_eq_ok] at h1 h1'
    obtain ⟨X, hX, h1⟩ := h1
    obtain ⟨X', hX', h1'⟩ := h1'
    exact ih (carried_cascade hρ h0 hx hX hX') h1 h1'

end Cascade

theorem specular_ord {k : Fin (l.shape.1 * l.shape.2)} (hk : (k : ℕ) = l.shape.1 / 2 + l.shape.1 * (l.shape.2 / 2)) :
    l.ord k = (0, 0) := by
  have h0 : 0 < l.shape.1 := Nat.pos_of_ne_zero fun h => by have := k.2; simp [h] at this
  have h1 : l.shape.1 / 2 < l.shape.1 := by omega
  simp only [TLattice.ord, hk, Nat.add_mul_mod_self_left, Nat.mod_eq_of_lt h1, Nat.add_mul_div_left _ _ h0,
    Nat.div_eq_of_lt h1, zero_add, sub_self]

theorem fluxes_fixed {ρ : Fin (l.shape.1 * l.shape.2) → Fin (l.shape.1 * l.shape.2)} {d : Fin (l.shape.1 * l.shape.2) → ℂ}
    (hρ : ∀ k, ρ (ρ k) = k) (hd : ∀ k, ‖d k‖ = 1)
    (hk : ∀ eps k, flatT l.shape (l.kz eps wl (0, 0)) (ρ k) = flatT l.shape (l.kz eps wl (0, 0)) k)
    {pin pout pout' : TIdx l.shape → ℂ} (e : carry ρ d pin = pin) (e' : pout' = carry ρ d pout) {kp kp' : ℂ × ℂ} :
    computeFluxes l wl pin pout' kp' = computeFluxes l wl pin pout kp := by
  have := TLattice.fluxes_carry hρ hd hk pin pout kp kp'
  rw [e] at this
  rw [e', this]

/-- **C101.** The waves that `incident` makes are in the specular order only. -/
theorem C101_incident {E0 p s : ℂ} {pin : TIdx l.shape → ℂ} (h : tmatIncident l.shape E0 p s = .ok pin) : Specular l pin := by
  unfold tmatIncident at h
  rw [bind_eq_ok] at h
  obtain ⟨-, -, h⟩ := h
  cases h
  intro x hx
  rcases x with (x | x) | (x | x)
  · exact if_neg hx
  · exact if_neg hx
  · rfl
  · rfl

/-- **C101.** So the powers do not depend on the origin of the patterns. -/
theorem C101_fluxes_moved (h : TLattice.make pw a1 a2 ei ee = .ok l) (hp : pw.1 = pw.2 ∨ pw.2 = 1) (h0 : 0 < pw.1) {v : R2}
    {S S' : Matrix (TIdx l.shape) (TIdx l.shape) ℂ} (hc : TCarried id (l.movePhase v) S S') {pin : TIdx l.shape → ℂ}
    (hpin : Specular l pin) (kp kp' : ℂ × ℂ) :
    computeFluxes l wl pin (S' *ᵥ pin) kp' = computeFluxes l wl pin (S *ᵥ pin) kp := by
  have hs := (TLattice.make_shape_iff h h0).2 (hp.imp_right le_of_eq)
  have e : carry id (l.movePhase v) pin = pin := by
    funext x
    have hx : onOrders id x = x := by rcases x with (x | x) | (x | x) <;> rfl
    rw [carry, hx]
    by_cases hk : (waveOrder x).val = l.shape.1 / 2 + l.shape.1 * (l.shape.2 / 2)
    · have e1 := TLattice.ord_wave h hs (waveOrder x)
      rw [specular_ord hk] at e1
      simp only [latticeVec, Int.cast_zero, mul_zero, add_zero, Prod.mk.injEq] at e1
      simp only [id, TLattice.movePhase]
      rw [e1.1, e1.2]
      simp
    · rw [hpin x hk, mul_zero]
  have hm := (carried_mulVec (fun _ => rfl)).1 hc pin
  rw [e] at hm
  exact fluxes_fixed (fun _ => rfl) (TLattice.movePhase_norm v) (fun _ _ => rfl) e hm

/-- **C101.** Nor do they change when the patterns are turned by half a turn together with the in-plane wave vector. -/
theorem C101_fluxes_half_turn (h : TLattice.make pw a1 a2 ei ee = .ok l) (hp : pw.1 = pw.2 ∨ pw.2 = 1) (ho : pw.1 % 2 = 1)
    {S S' : Matrix (TIdx l.shape) (TIdx l.shape) ℂ} (hc : TCarried Fin.rev (l.flip (↑a, ↑b)) S S') {pin : TIdx l.shape → ℂ}
    (hpin : Specular l pin) (kp kp' : ℂ × ℂ) :
    computeFluxes l wl pin (S' *ᵥ pin) kp' = computeFluxes l wl pin (S *ᵥ pin) kp := by
  have hs := (TLattice.make_shape_iff h (by omega)).2 (hp.imp_right le_of_eq)
  have h2 : pw.2 % 2 = 1 := by rcases hp with hp | hp <;> omega
  have hs1 : l.shape.1 % 2 = 1 := by rw [hs]; exact ho
  have hs2 : l.shape.2 % 2 = 1 := by rw [hs]; exact h2
  have hlt : l.shape.1 / 2 + l.shape.1 * (l.shape.2 / 2) < l.shape.1 * l.shape.2 := by
    obtain ⟨m, hm⟩ : ∃ m, l.shape.2 = 2 * m + 1 := ⟨l.shape.2 / 2, by omega⟩
    rw [hm, show (2 * m + 1) / 2 = m by omega]
    have : l.shape.1 * (2 * m + 1) = l.shape.1 * m + l.shape.1 * m + l.shape.1 := by ring
    omega
  obtain ⟨k0, hk0⟩ : ∃ k0 : Fin (l.shape.1 * l.shape.2), (k0 : ℕ) = l.shape.1 / 2 + l.shape.1 * (l.shape.2 / 2) := ⟨⟨_, hlt⟩, rfl⟩
  have hrev : k0.rev = k0 := by
    apply TLattice.ord_injective l
    simp only
    rw [TLattice.ord_rev hs1 hs2, specular_ord hk0]; rfl
  set s := l.flip (↑a, ↑b) k0 with hsdef
  have hs2' : s * s = 1 := by rw [hsdef]; unfold TLattice.flip; split_ifs <;> norm_num
  have hsn : ‖s‖ = 1 := TLattice.flip_norm _ _
  have e : carry Fin.rev (fun k => s * l.flip (↑a, ↑b) k) pin = pin := by
    funext x
    rw [carry]
    by_cases hk : (waveOrder x).val = l.shape.1 / 2 + l.shape.1 * (l.shape.2 / 2)
    · have hx : waveOrder x = k0 := Fin.ext (by rw [hk, hk0])
      have hx' : onOrders Fin.rev x = x := by
        rcases x with (x | x) | (x | x) <;> simp only [waveOrder, Sum.elim_inl, Sum.elim_inr, id] at hx <;> subst hx <;>
          simp [onOrders, hrev]
      rw [hx', hx, hrev, ← hsdef, hs2', one_mul]
    · rw [hpin x hk, hpin, mul_zero]
      rw [waveOrder_onOrders]
      intro h'
      refine hk ?_
      have : Fin.rev (waveOrder x) = k0 := Fin.ext (by rw [h', hk0])
      rw [← hrev] at this
      rw [Fin.rev_injective this, hk0]
  have hm := (carried_mulVec Fin.rev_rev).1 hc pin
  have hsm : ∀ p : TIdx l.shape → ℂ, carry Fin.rev (fun k => s * l.flip (↑a, ↑b) k) p = s • carry Fin.rev (l.flip (↑a, ↑b)) p := by
    intro p; funext x; simp only [carry, Pi.smul_apply, smul_eq_mul, mul_assoc]
  have hm' : S' *ᵥ pin = carry Fin.rev (fun k => s * l.flip (↑a, ↑b) k) (S *ᵥ pin) := by
    rw [hsm, ← hm, ← mulVec_smul, ← hsm, e]
  refine fluxes_fixed Fin.rev_rev (fun k => by rw [norm_mul, hsn, TLattice.flip_norm, one_mul]) (fun eps k => ?_) e hm'
  have := TLattice.kz_rev (wl := wl) (a := 0) (b := 0) h hs ho h2 eps k
  simpa using this

/-- **C101.** A device that half a turn does not change has a symmetric S-matrix at each in-plane wave vector, up to `kz` and
the sign of the second polarisation: with C100, what `y` gets from `x` is what `x` gets from `y`. -/
theorem C101_symmetric (h : TLattice.make pw a1 a2 ei ee = .ok l) (hp : pw.1 = pw.2 ∨ pw.2 = 1) (ho : pw.1 % 2 = 1)
    {S Vi Ve S' Vi' Ve' : Matrix (TIdx l.shape) (TIdx l.shape) ℂ}
    (hi : l.V l.epsI wl (↑a, ↑b) = .ok Vi) (he : l.V l.epsE wl (↑a, ↑b) = .ok Ve)
    (hi' : l.V l.epsI wl (((-a : ℝ) : ℂ), ((-b : ℝ) : ℂ)) = .ok Vi')
    (he' : l.V l.epsE wl (((-a : ℝ) : ℂ), ((-b : ℝ) : ℂ)) = .ok Ve') (hr : TReciprocal Vi Ve S Vi' Ve' S')
    (hc : TCarried Fin.rev (l.flip (↑a, ↑b)) S S') (x y : TIdx l.shape) :
    l.flip (↑a, ↑b) (waveOrder x) * l.weights wl (↑a, ↑b) x * S x.swap y =
      l.flip (↑a, ↑b) (waveOrder y) * l.weights wl (↑a, ↑b) y * S y.swap x := by
  have e1 := C100_entries h hp ho hi he hi' he' hr x y
  have e2 := hc x.swap y
  have e3 : (Sum.map oppWave oppWave x).swap = onOrders Fin.rev x.swap := by rcases x with (x | x) | (x | x) <;> rfl
  have e4 : Sum.map oppWave oppWave y = onOrders Fin.rev y := by rcases y with (y | y) | (y | y) <;> rfl
  have e5 : waveOrder x.swap = waveOrder x := by rcases x with (x | x) | (x | x) <;> rfl
  rw [e3, e4] at e1
  rw [e5] at e2
  linear_combination (l.flip (↑a, ↑b) (waveOrder y)) * e1 - l.weights wl (↑a, ↑b) x * e2

/-- Non-vacuity of C101: an L of two rectangles on 3 × 3 orders at oblique incidence, the L moved and the L turned by half a
turn: all three layers exist, and reflect and transmit the same. -/
example (jv1 : ℝ → ℝ) (v : R2) (depth : ℝ) (k k' k'' : ℕ) : ∃ l : TLattice,
    TLattice.make (3, 3) (1, 0) (0, 1) (.float 1) (.float 1) = .ok l ∧ ∃ S S' S'' pin,
    tmatScattering jv1 l [(.shape (.rectangle 0 0 (1 / 2) (1 / 4)), 4), (.shape (.rectangle 0 (1 / 4) (1 / 4) (3 / 4)), 6)] 2 (1 / 2)
      (((1 : ℝ) : ℂ), ((0 : ℝ) : ℂ)) depth k = .ok S ∧
    tmatScattering jv1 l [(.shape (.rectangle (0 + v.1) (0 + v.2) (1 / 2 + v.1) (1 / 4 + v.2)), 4),
      (.shape (.rectangle (0 + v.1) (1 / 4 + v.2) (1 / 4 + v.1) (3 / 4 + v.2)), 6)] 2 (1 / 2)
      (((1 : ℝ) : ℂ), ((0 : ℝ) : ℂ)) depth k' = .ok S' ∧
    tmatScattering jv1 l [(.shape (.rectangle (-0) (-0) (-(1 / 2)) (-(1 / 4))), 4),
      (.shape (.rectangle (-0) (-(1 / 4)) (-(1 / 4)) (-(3 / 4))), 6)] 2 (1 / 2)
      (((-1 : ℝ) : ℂ), ((-0 : ℝ) : ℂ)) depth k'' = .ok S'' ∧
    tmatIncident l.shape 1 1 2 = .ok pin ∧
    ∀ kp, computeFluxes l (1 / 2) pin (S' *ᵥ pin) kp = computeFluxes l (1 / 2) pin (S *ᵥ pin) kp ∧
      computeFluxes l (1 / 2) pin (S'' *ᵥ pin) kp = computeFluxes l (1 / 2) pin (S *ᵥ pin) kp := by
  obtain ⟨l, h, hb⟩ := unit_tlattice (3, 3) rfl (.float 1) (.float 1)
  obtain ⟨-, -, -, -, h1, h2⟩ := TLattice.make_fields h
  have hper : Periods l.b := by rw [hb]; exact unit_periods
  have hs : l.shape = (3, 3) := (TLattice.make_shape_iff h (by norm_num)).2 (Or.inl rfl)
  have hv1 : l.epsI.val = ((1 : ℝ) : ℂ) := by rw [h1]; rfl
  have hex : ∀ (c : Fin 2 → Fin 4 → ℝ) (a : ℝ), |a| ≤ 1 → ∀ k, ∃ S, tmatScattering jv1 l
      [(.shape (.rectangle (c 0 0) (c 0 1) (c 0 2) (c 0 3)), 4), (.shape (.rectangle (c 1 0) (c 1 1) (c 1 2) (c 1 3)), 6)]
      2 (1 / 2) (↑a, ((0 : ℝ) : ℂ)) depth k = .ok S := by
    intro c a ha k
    refine C61_exists h (Or.inl rfl) (by norm_num) two_ne_zero (by simp) (by simp) (by simp) ?_ (by norm_num) hv1 one_pos ?_ ?_ depth k
    · intro d hd
      simp only [List.mem_cons, List.not_mem_nil, or_false] at hd
      rcases hd with rfl | rfl <;> exact ⟨_, pyFinM_eq_ok.2 fun i => pyFinM_eq_ok.2 fun j => rfl⟩
    · intro k
      obtain ⟨r, hr, e⟩ := unit3_kz_oblique h hb ha k
      rw [h1, e]
      exact_mod_cast hr.ne'
    · intro k
      obtain ⟨r, hr, e⟩ := unit3_kz_oblique h hb ha k
      rw [h1, e, Complex.ofReal_im]
  obtain ⟨S, hS⟩ := hex ![![0, 0, 1 / 2, 1 / 4], ![0, 1 / 4, 1 / 4, 3 / 4]] 1 (by norm_num) k
  obtain ⟨S', hS'⟩ := hex ![![0 + v.1, 0 + v.2, 1 / 2 + v.1, 1 / 4 + v.2], ![0 + v.1, 1 / 4 + v.2, 1 / 4 + v.1, 3 / 4 + v.2]] 1
    (by norm_num) k'
  obtain ⟨S'', hS''⟩ := hex ![![-0, -0, -(1 / 2), -(1 / 4)], ![-0, -(1 / 4), -(1 / 4), -(3 / 4)]] (-1) (by norm_num) k''
  have hz : ((0 : ℝ) : ℂ) = ((-0 : ℝ) : ℂ) := by simp
  obtain ⟨pin, hpin⟩ : ∃ pin, tmatIncident l.shape 1 1 2 = .ok pin := by
    have : l.shape.1 / 2 + l.shape.1 * (l.shape.2 / 2) < l.shape.1 * l.shape.2 := by rw [hs]; norm_num
    exact ⟨_, by unfold tmatIncident; simp only [pyCheck, this, if_true]; rfl⟩
  rw [hz] at hS''
  refine ⟨l, h, S, S', S'', pin, hS, hS', hS'', hpin, fun kp => ⟨?_, ?_⟩⟩
  · exact C101_fluxes_moved h (Or.inl rfl) (by norm_num) (C101_moved h (Or.inl rfl) (by norm_num) hper hS hS') (C101_incident hpin) _ _
  · exact C101_fluxes_half_turn h (Or.inl rfl) rfl (C101_half_turn h (Or.inl rfl) rfl hS hS'') (C101_incident hpin) _ _

end Khepri
