import Verif.Props.Tmat
import Mathlib.Analysis.SpecialFunctions.ExpDeriv

/-!
# C60, C61: what T-matrix S-matrices say about fields and power

`l.coupling jv1 islands host f` is the specification of the pattern (`Spec/Tmat.lean`): the coefficient of `f` of the
permittivity at the difference of the wave vectors of two orders.
-/

namespace Khepri

open Matrix Complex

section C60
variable {pw : ℕ × ℕ} {a1 a2 : R2} {ei ee : PyNum} {l : TLattice} {jv1 : ℝ → ℝ} {wl : ℝ} {a b : ℝ}

/-- **C60.** The equations are Maxwell's in SI units: `k0 Z` and `k0 / Z` are `ω μ0` and `ω ε0`, at the angular frequency of
that wavelength in vacuum; `constants.py` has this impedance of vacuum. -/
theorem C60_si (hw : wl ≠ 0) (ω : ℝ) (hω : ω = 2 * Real.pi * lightSpeed / wl) :
    2 * Real.pi / wl * mu0c = ω * vacuumPermeability ∧ 2 * Real.pi / wl / mu0c = ω * vacuumPermittivity ∧
      mu0c ^ 2 = vacuumPermeability / vacuumPermittivity := by
  have hl : lightSpeed ≠ 0 := by norm_num [lightSpeed]
  have hm : vacuumPermeability ≠ 0 := by
    have := Real.pi_pos
    unfold vacuumPermeability
    positivity
  rw [← vacuumImpedance_eq, hω, vacuumImpedance, vacuumPermittivity]
  refine ⟨by ring, by field_simp, by field_simp⟩

/-- **C60.** What amplitudes mean: `Vi` (or `Ve`) times amplitudes that each go as `exp(± i kz z)` is a field that obeys
Maxwell's equations in that medium. -/
theorem C60_modes {eps : PyNum} {V : Matrix (TIdx l.shape) (TIdx l.shape) ℂ} (hV : l.V eps wl (↑a, ↑b) = .ok V)
    (hc : ∀ k, l.wave (↑a, ↑b) k = 0 ∨ 1 / 2 ^ 52 ≤ ‖(l.wave (↑a, ↑b) k).1‖ ^ 2 + ‖(l.wave (↑a, ↑b) k).2‖ ^ 2)
    (p : TIdx l.shape → ℂ) :
    TMaxwell (l.wave (↑a, ↑b)) (diagonal fun _ => eps.val) (diagonal fun _ => 1 / eps.val) (2 * Real.pi / wl)
      fun z => V *ᵥ Sum.elim
        (Sum.elim (fun k => exp (I * flatT l.shape (l.kz eps wl (↑a, ↑b)) k * z) * p (.inl (.inl k)))
          (fun k => exp (I * flatT l.shape (l.kz eps wl (↑a, ↑b)) k * z) * p (.inl (.inr k))))
        (Sum.elim (fun k => exp (-(I * flatT l.shape (l.kz eps wl (↑a, ↑b)) k * z)) * p (.inr (.inl k)))
          (fun k => exp (-(I * flatT l.shape (l.kz eps wl (↑a, ↑b)) k * z)) * p (.inr (.inr k)))) := by
  have hw := (TLattice.V_ok hV).1
  have hk : 2 * Real.pi / wl ≠ 0 := div_ne_zero (by positivity) hw
  rw [tmaxwell_iff hk]
  intro z i
  have hc' : l.ClearDirs (↑a, ↑b) := fun k => by
    rw [uNorm, Real.sq_sqrt (by positivity)]
    exact hc k
  have hA := TLattice.tsystem_V hV hc'
  rw [mulVec_mulVec, hA, ← mulVec_mulVec, diagBlocks_diagonal]
  simp only [mulVec, dotProduct]
  apply HasDerivAt.fun_sum
  intro j _
  apply HasDerivAt.const_mul
  have hd : ∀ (c q : ℂ), HasDerivAt (fun t : ℝ => exp (c * t) * q) (c * (exp (c * z) * q)) z := by
    intro c q
    have h1 : HasDerivAt (fun t : ℝ => c * (t : ℂ)) c z := by
      simpa using (Complex.ofRealCLM.hasDerivAt (x := z)).const_mul c
    have := (h1.cexp).mul_const q
    rwa [mul_right_comm, mul_comm] at this
  have hs : ∀ (d v : TIdx l.shape → ℂ), ∑ x, diagonal d j x * v x = d j * v j := by
    intro d v
    exact mulVec_diagonal d v j
  rw [hs]
  rcases j with (j | j) | (j | j)
  · exact hd _ _
  · exact hd _ _
  · simpa only [Sum.elim_inl, Sum.elim_inr, neg_mul] using hd (-(I * flatT l.shape (l.kz eps wl (↑a, ↑b)) j)) (p (.inr (.inl j)))
  · simpa only [Sum.elim_inl, Sum.elim_inr, neg_mul] using hd (-(I * flatT l.shape (l.kz eps wl (↑a, ↑b)) j)) (p (.inr (.inr j)))

variable {islands : List (TShape × ℂ)} {host : ℂ}

/-- **C60.** The S-matrix of a layer relates exactly the amplitudes on its faces that one field obeying Maxwell's
equations of the patterned layer joins. -/
theorem C60_layer (h : TLattice.make pw a1 a2 ei ee = .ok l) (hp : pw.1 = pw.2 ∨ pw.2 = 1) (h0 : 0 < pw.1)
    {depth : ℝ} {k : ℕ} {S V : Matrix (TIdx l.shape) (TIdx l.shape) ℂ}
    (hS : tmatScattering jv1 l islands host wl (↑a, ↑b) depth k = .ok S) (hV : l.V l.epsI wl (↑a, ↑b) = .ok V)
    (u v : TIdx l.shape → ℂ) :
    TScatters S u v ↔ ∃ f : ℝ → TIdx l.shape → ℂ,
      TMaxwell (l.wave (↑a, ↑b)) (l.coupling jv1 islands host id) (l.coupling jv1 islands host (1 / ·)) (2 * Real.pi / wl) f ∧
      f 0 = V *ᵥ u ∧ f depth = V *ᵥ v := by
  have hw := (TLattice.V_ok hV).1
  have hk : 2 * Real.pi / wl ≠ 0 := div_ne_zero (by positivity) hw
  rw [TLattice.layer_relates h ((TLattice.make_shape_iff h h0).2 (hp.imp_right le_of_eq)) hS hV]
  simp only [tmaxwell_iff hk]

/-- **C60.** The S-matrix of the interface relates exactly the amplitudes whose tangential fields are continuous. -/
theorem C60_interface {S Vi Ve : Matrix (TIdx l.shape) (TIdx l.shape) ℂ} (hS : tmatInterface l wl (↑a, ↑b) = .ok S)
    (hi : l.V l.epsI wl (↑a, ↑b) = .ok Vi) (he : l.V l.epsE wl (↑a, ↑b) = .ok Ve) (u v : TIdx l.shape → ℂ) :
    TScatters S u v ↔ Vi *ᵥ u = Ve *ᵥ v := TLattice.interface_relates hS hi he u v

/-- **C60.** A cascade of two layers and the interface: one field per layer, continuous from each to the next. -/
theorem C60_stack (h : TLattice.make pw a1 a2 ei ee = .ok l) (hp : pw.1 = pw.2 ∨ pw.2 = 1) (h0 : 0 < pw.1)
    {islands' : List (TShape × ℂ)} {host' : ℂ} {d d' : ℝ} {k k' : ℕ} {S1 S2 S12 S3 S Vi Ve : Matrix (TIdx l.shape) (TIdx l.shape) ℂ}
    (h1 : tmatScattering jv1 l islands host wl (↑a, ↑b) d k = .ok S1)
    (h2 : tmatScattering jv1 l islands' host' wl (↑a, ↑b) d' k' = .ok S2)
    (h3 : tmatInterface l wl (↑a, ↑b) = .ok S3) (h12 : multS S1 S2 = .ok S12) (h123 : multS S12 S3 = .ok S)
    (hi : l.V l.epsI wl (↑a, ↑b) = .ok Vi) (he : l.V l.epsE wl (↑a, ↑b) = .ok Ve) (u w : TIdx l.shape → ℂ) :
    TScatters S u w ↔ ∃ f g : ℝ → TIdx l.shape → ℂ,
      TMaxwell (l.wave (↑a, ↑b)) (l.coupling jv1 islands host id) (l.coupling jv1 islands host (1 / ·)) (2 * Real.pi / wl) f ∧
      TMaxwell (l.wave (↑a, ↑b)) (l.coupling jv1 islands' host' id) (l.coupling jv1 islands' host' (1 / ·)) (2 * Real.pi / wl) g ∧
      f 0 = Vi *ᵥ u ∧ f d = g 0 ∧ g d' = Ve *ᵥ w := by
  obtain ⟨U, V, hU, hV, -⟩ := TLattice.layer_S h ((TLattice.make_shape_iff h h0).2 (hp.imp_right le_of_eq)) h1
  obtain rfl : V = Vi := Except.ok.inj (hV.symm.trans hi)
  have hVU := TLattice.Vi_mul_U hU hV
  rw [multS_chain h123]
  simp only [multS_chain h12, C60_layer h hp h0 h1 hi, C60_layer h hp h0 h2 hi, C60_interface h3 hi he]
  constructor
  · rintro ⟨v', ⟨v, ⟨f, hf, f0, fd⟩, g, hg, g0, gd⟩, e⟩
    exact ⟨f, g, hf, hg, f0, by rw [fd, g0], by rw [gd, e]⟩
  · rintro ⟨f, g, hf, hg, f0, fg, gd⟩
    have hx : ∀ x, V *ᵥ (U *ᵥ x) = x := fun x => by rw [mulVec_mulVec, hVU, one_mulVec]
    exact ⟨U *ᵥ (Ve *ᵥ w), ⟨U *ᵥ g 0, ⟨f, hf, f0, by rw [fg, hx]⟩, g, hg, by rw [hx], by rw [gd, hx]⟩, hx _⟩

/-- **C60.** A layer of the incidence medium (islands, if any, of the same permittivity, or `uniform`) multiplies the
amplitude of every order by `exp(i kz depth)` and reflects nothing; it never raises. -/
theorem C60_uniform (h : TLattice.make pw a1 a2 ei ee = .ok l) (hp : pw.1 = pw.2 ∨ pw.2 = 1) (h0 : 0 < pw.1)
    (hu : ∀ d ∈ islands, d.1 = .uniform ∨ d.2 = host)
    (hi : ∀ d ∈ islands, d.2 ≠ 0) (ht : ∀ d ∈ islands, ∃ t, l.transform jv1 d.1 = .ok t)
    (hm : host = l.epsI.val) (he : l.epsI.val ≠ 0) (hw : wl ≠ 0) (hr : ∀ r, l.epsI = .float r → 0 ≤ r)
    (hk : ∀ k, flatT l.shape (l.kz l.epsI wl (↑a, ↑b)) k ≠ 0)
    (hc : ∀ k, l.wave (↑a, ↑b) k = 0 ∨ 1 / 2 ^ 52 ≤ ‖(l.wave (↑a, ↑b) k).1‖ ^ 2 + ‖(l.wave (↑a, ↑b) k).2‖ ^ 2)
    (depth : ℝ) (k : ℕ) :
    tmatScattering jv1 l islands host wl (↑a, ↑b) depth k = .ok (diagonal (Sum.elim
      (Sum.elim (fun k => exp (I * flatT l.shape (l.kz l.epsI wl (↑a, ↑b)) k * depth))
        (fun k => exp (I * flatT l.shape (l.kz l.epsI wl (↑a, ↑b)) k * depth)))
      (Sum.elim (fun k => exp (I * flatT l.shape (l.kz l.epsI wl (↑a, ↑b)) k * depth))
        (fun k => exp (I * flatT l.shape (l.kz l.epsI wl (↑a, ↑b)) k * depth))))) := by
  refine TLattice.uniform_layer h ((TLattice.make_shape_iff h h0).2 (hp.imp_right le_of_eq)) ⟨h0, by rcases hp with hp | hp <;> omega⟩ hu hi ht hm he hw ?_ hk
    (fun k => ?_) depth k
  · cases e : l.epsI with
    | float r => exact hr r e
    | complex z => trivial
  · rw [uNorm, Real.sq_sqrt (by positivity)]
    exact hc k

end C60

/-! ## C61: energy -/

section C61
variable {pw : ℕ × ℕ} {a1 a2 : R2} {ei ee : PyNum} {l : TLattice} {jv1 : ℝ → ℝ} {wl : ℝ} {a b : ℝ}
  {islands : List (TShape × ℂ)} {host : ℂ}

/-- **C61.** A layer of real permittivities loses no power. -/
theorem C61_layer (h : TLattice.make pw a1 a2 ei ee = .ok l) (hp : pw.1 = pw.2 ∨ pw.2 = 1) (h0 : 0 < pw.1)
    (hh : host.im = 0) (hi : ∀ d ∈ islands, d.2.im = 0) {depth : ℝ} {k : ℕ} {S V : Matrix (TIdx l.shape) (TIdx l.shape) ℂ}
    (hS : tmatScattering jv1 l islands host wl (↑a, ↑b) depth k = .ok S) (hV : l.V l.epsI wl (↑a, ↑b) = .ok V) :
    TLossless V V S :=
  fun _ _ huv => TLattice.layer_power h ((TLattice.make_shape_iff h h0).2 (hp.imp_right le_of_eq)) hh hi hS hV huv

/-- **C61.** The interface loses no power. -/
theorem C61_interface {S Vi Ve : Matrix (TIdx l.shape) (TIdx l.shape) ℂ} (hS : tmatInterface l wl (↑a, ↑b) = .ok S)
    (hi : l.V l.epsI wl (↑a, ↑b) = .ok Vi) (he : l.V l.epsE wl (↑a, ↑b) = .ok Ve) : TLossless Vi Ve S :=
  fun u v huv => by rw [(TLattice.interface_relates hS hi he u v).1 huv]

/-- **C61.** A cascade of lossless parts is lossless. -/
theorem C61_cascade {g : Type} [Fintype g] [DecidableEq g] {Va Vb Vc S1 S2 S : Matrix ((g ⊕ g) ⊕ (g ⊕ g)) ((g ⊕ g) ⊕ (g ⊕ g)) ℂ}
    (h1 : TLossless Va Vb S1) (h2 : TLossless Vb Vc S2) (h : multS S1 S2 = .ok S) : TLossless Va Vc S := by
  intro u w huw
  obtain ⟨v, hv1, hv2⟩ := (multS_chain h u w).1 huw
  rw [h1 u v hv1, h2 v w hv2]

/-- **C61.** So is a device of any number of them, cascaded from the left. -/
theorem C61_device {g : Type} [Fintype g] [DecidableEq g] {Vi Ve : Matrix ((g ⊕ g) ⊕ (g ⊕ g)) ((g ⊕ g) ⊕ (g ⊕ g)) ℂ}
    {layers : List (Matrix ((g ⊕ g) ⊕ (g ⊕ g)) ((g ⊕ g) ⊕ (g ⊕ g)) ℂ)}
    (hl : ∀ S ∈ layers, TLossless Vi Vi S) {S0 S1 Sint S : Matrix ((g ⊕ g) ⊕ (g ⊕ g)) ((g ⊕ g) ⊕ (g ⊕ g)) ℂ}
    (h0 : TLossless Vi Vi S0) (hint : TLossless Vi Ve Sint) (h1 : layers.foldlM multS S0 = .ok S1)
    (h : multS S1 Sint = .ok S) : TLossless Vi Ve S := by
  refine C61_cascade ?_ hint h
  clear h hint
  induction layers generalizing S0 with
  | nil => cases h1; exact h0
  | cons A t ih =>
    rw [List.foldlM_cons, bind_eq_ok] at h1
    obtain ⟨X, hX, h1⟩ := h1
    exact ih (fun S hS => hl S (List.mem_cons_of_mem _ hS)) (C61_cascade h0 (hl A List.mem_cons_self) hX) h1

/-- **C61.** Lossless device between real positive media at normal incidence, excited from the left in propagating
orders: `R + T = 1` and `A = 0`.  No order is within rounding of grazing. -/
theorem C61_fluxes {ri re : ℝ} (hi : l.epsI.val = ri) (hri : 0 < ri) (he : l.epsE.val = re) (hre : 0 < re)
    (hI : ∀ k, (flatT l.shape (l.kz l.epsI wl (0, 0)) k).im = 0 ∨ floatEps < (flatT l.shape (l.kz l.epsI wl (0, 0)) k).im)
    (hE : ∀ k, (flatT l.shape (l.kz l.epsE wl (0, 0)) k).im = 0 ∨ floatEps < (flatT l.shape (l.kz l.epsE wl (0, 0)) k).im)
    {Vi Ve S : Matrix (TIdx l.shape) (TIdx l.shape) ℂ} (hVi : l.V l.epsI wl (0, 0) = .ok Vi)
    (hVe : l.V l.epsE wl (0, 0) = .ok Ve) (hS : TLossless Vi Ve S)
    {pin : TIdx l.shape → ℂ} (hpin : ∀ k, (flatT l.shape (l.kz l.epsI wl (0, 0)) k).im = 0 ∨
      (pin (.inl (.inl k)) = 0 ∧ pin (.inl (.inr k)) = 0)) (hright : ∀ i, pin (.inr i) = 0)
    {kp : ℂ × ℂ} {R T A : ℝ} (h : computeFluxes l wl pin (S *ᵥ pin) kp = .ok (R, T, A)) : R + T = 1 ∧ A = 0 := by
  refine TLattice.fluxes_conserve hi hri he hre (fun k => (hI k).imp_right fun h => h.trans_le (le_abs_self _))
    (fun k => (hE k).imp_right fun h => h.trans_le (le_abs_self _)) hVi hVe hpin (hS _ _ ?_) h
  have e : pin = Sum.elim (pin ∘ Sum.inl) 0 := by
    funext i
    rcases i with i | i
    · rfl
    · exact hright i
  unfold TScatters
  have e1 : Sum.elim (Sum.elim (pin ∘ Sum.inl) ((S *ᵥ pin) ∘ Sum.inr) ∘ Sum.inl)
      (Sum.elim ((S *ᵥ pin) ∘ Sum.inl) (0 : Fin (l.shape.1 * l.shape.2) ⊕ Fin (l.shape.1 * l.shape.2) → ℂ) ∘ Sum.inr) = pin := by
    rw [Sum.elim_comp_inl, Sum.elim_comp_inr]; exact e.symm
  rw [e1, Sum.elim_comp_inl, Sum.elim_comp_inr, Sum.elim_comp_inl_inr]

/-- **C61.** A lossless layer never raises when every order propagates in a real positive incidence medium, whatever the
depth and the slicing. -/
theorem C61_exists (h : TLattice.make pw a1 a2 ei ee = .ok l) (hp : pw.1 = pw.2 ∨ pw.2 = 1) (h0 : 0 < pw.1)
    (hh : host ≠ 0) (hi : ∀ d ∈ islands, d.2 ≠ 0) (hhr : host.im = 0) (hir : ∀ d ∈ islands, d.2.im = 0)
    (ht : ∀ d ∈ islands, ∃ t, l.transform jv1 d.1 = .ok t) (hw : wl ≠ 0) {r : ℝ} (he : l.epsI.val = r) (hr : 0 < r)
    (hk0 : ∀ k, flatT l.shape (l.kz l.epsI wl (↑a, ↑b)) k ≠ 0)
    (hk : ∀ k, (flatT l.shape (l.kz l.epsI wl (↑a, ↑b)) k).im = 0) (depth : ℝ) (k : ℕ) :
    ∃ S, tmatScattering jv1 l islands host wl (↑a, ↑b) depth k = .ok S :=
  TLattice.layer_exists h ((TLattice.make_shape_iff h h0).2 (hp.imp_right le_of_eq)) ⟨h0, by rcases hp with hp | hp <;> omega⟩ hh hi hhr hir ht hw he hr hk0 hk depth k

/-- On 3 × 3 orders of a square lattice of period 1 in vacuum, at wavelength 1/2 and normal incidence, every order
propagates. -/
theorem unit3_kz {l : TLattice} (h : TLattice.make (3, 3) (1, 0) (0, 1) (.float 1) (.float 1) = .ok l)
    (hb : l.b = ((2 * Real.pi, 0), (0, 2 * Real.pi))) (k : Fin (l.shape.1 * l.shape.2)) :
    ∃ r : ℝ, 0 < r ∧ flatT l.shape (l.kz (.float 1) (1 / 2) (0, 0)) k = r := by
  have hs : l.shape = (3, 3) := (TLattice.make_shape_iff h (by norm_num)).2 (Or.inl rfl)
  have hs1 : l.shape.1 = 3 := by rw [hs]
  have hs2 : l.shape.2 = 3 := by rw [hs]
  have hk := k.2
  simp only [hs1, hs2] at hk
  have bound : ∀ i : ℕ, i < 3 → ((i : ℝ) - ((3 / 2 : ℕ) : ℝ)) ^ 2 ≤ 1 := by
    intro i hi
    interval_cases i <;> norm_num
  set i := (k : ℕ) % l.shape.1 with hi
  set j := (k : ℕ) / l.shape.1 with hj
  have b1 := bound i (by rw [hi]; have := Nat.mod_lt (k : ℕ) (show 0 < l.shape.1 by omega); omega)
  have b2 := bound j (by rw [hj]; refine Nat.div_lt_of_lt_mul ?_; omega)
  set x := (i : ℝ) - ((3 / 2 : ℕ) : ℝ)
  set y := (j : ℝ) - ((3 / 2 : ℕ) : ℝ)
  have hgx : l.gx i j = 2 * Real.pi * x := by rw [(TLattice.make_gx h i j).1, hb]; simp [x]
  have hgy : l.gy i j = 2 * Real.pi * y := by rw [(TLattice.make_gx h i j).2, hb]; simp [y]
  have hpi := Real.pi_pos
  have hr : 0 < 1 * (2 * Real.pi / (1 / 2)) ^ 2 - ((0 + 2 * Real.pi * x) ^ 2 + (2 * Real.pi * y) ^ 2) := by
    have e : 1 * (2 * Real.pi / (1 / 2)) ^ 2 - ((0 + 2 * Real.pi * x) ^ 2 + (2 * Real.pi * y) ^ 2) =
        4 * Real.pi ^ 2 * (4 - (x ^ 2 + y ^ 2)) := by ring
    rw [e]
    apply mul_pos (by positivity)
    linarith
  refine ⟨Real.sqrt _, Real.sqrt_pos.2 hr, ?_⟩
  simp only [flatT, TLattice.kz, PyNum.val]
  rw [← hi, ← hj, hgx, hgy, ← Complex.ofReal_zero]
  exact computeKz_pos (Real.sqrt_pos.2 hr) (Real.sq_sqrt hr.le).symm

/-- Non-vacuity of C45, C60 and C61: a bar of permittivity 4 in vacuum, 3 × 3 orders: the layer, the interface, their
cascade and the fluxes exist, for any depth and slicing. -/
example (jv1 : ℝ → ℝ) (depth : ℝ) (k : ℕ) : ∃ (l : TLattice) (S V Sint X : Matrix (TIdx l.shape) (TIdx l.shape) ℂ)
    (pin : TIdx l.shape → ℂ) (R T A : ℝ),
    TLattice.make (3, 3) (1, 0) (0, 1) (.float 1) (.float 1) = .ok l ∧
    tmatScattering jv1 l [(.shape (.rectangle 0 0 (1 / 2) 1), 4)] 1 (1 / 2) (((0 : ℝ) : ℂ), ((0 : ℝ) : ℂ)) depth k = .ok S ∧
    l.V l.epsI (1 / 2) (((0 : ℝ) : ℂ), ((0 : ℝ) : ℂ)) = .ok V ∧
    tmatInterface l (1 / 2) (((0 : ℝ) : ℂ), ((0 : ℝ) : ℂ)) = .ok Sint ∧ multS S Sint = .ok X ∧
    (∀ i, pin (.inr i) = 0) ∧ computeFluxes l (1 / 2) pin (X *ᵥ pin) (0, 0) = .ok (R, T, A) := by
  obtain ⟨l, h, hb⟩ := unit_tlattice (3, 3) rfl (.float 1) (.float 1)
  obtain ⟨-, -, -, har, h1, h2⟩ := TLattice.make_fields h
  have hk := unit3_kz h hb
  rw [← h1] at hk
  have hz : (((0 : ℝ) : ℂ), ((0 : ℝ) : ℂ)) = ((0, 0) : ℂ × ℂ) := by simp
  have hk0 : ∀ k, flatT l.shape (l.kz l.epsI (1 / 2) (((0 : ℝ) : ℂ), ((0 : ℝ) : ℂ))) k ≠ 0 := by
    intro k
    obtain ⟨r, hr, e⟩ := hk k
    rw [hz, e]
    exact_mod_cast hr.ne'
  have hkr : ∀ k, (flatT l.shape (l.kz l.epsI (1 / 2) (((0 : ℝ) : ℂ), ((0 : ℝ) : ℂ))) k).im = 0 := by
    intro k
    obtain ⟨r, hr, e⟩ := hk k
    rw [hz, e, Complex.ofReal_im]
  have hv1 : l.epsI.val = ((1 : ℝ) : ℂ) := by rw [h1]; rfl
  obtain ⟨S, hS⟩ := C61_exists (jv1 := jv1) (islands := [(.shape (.rectangle 0 0 (1 / 2) 1), 4)]) (host := 1)
    (wl := 1 / 2) (a := 0) (b := 0) h (Or.inl rfl) (by norm_num) one_ne_zero (by simp) (by simp) (by simp)
    (by
      intro d hd
      simp only [List.mem_singleton] at hd
      subst hd
      exact ⟨_, pyFinM_eq_ok.2 fun i => pyFinM_eq_ok.2 fun j => rfl⟩)
    (by norm_num) hv1 one_pos hk0 hkr depth k
  obtain ⟨⟨U, hU⟩, V, hV⟩ := C44_exists (l := l) (wl := 1 / 2) (by norm_num) (by rw [hv1]; simp)
    (by rw [h1]; intro r hr; cases hr; norm_num) hk0
  obtain ⟨Sint, hint, hneut⟩ := C44_neutral (h2.trans h1.symm) hU hV
  let pin : TIdx l.shape → ℂ := Sum.elim (fun _ => 1) (fun _ => 0)
  have hfl : ∃ R T A, computeFluxes l (1 / 2) pin (S *ᵥ pin) (0, 0) = .ok (R, T, A) := by
    unfold computeFluxes
    have hsum : ∑ k, (computeCurrents l (1 / 2) pin (S *ᵥ pin) (0, 0)).1 k ≠ 0 := by
      choose r hr e using hk
      have : ∀ k, (computeCurrents l (1 / 2) pin (S *ᵥ pin) (0, 0)).1 k =
          ((l.area / (2 * mu0c * (2 * Real.pi) / (1 / 2)) * r k * 2 : ℝ) : ℂ) := by
        intro k
        simp only [computeCurrents, e k, Complex.ofReal_im, abs_zero, TLattice.floatEps_pos.le, if_true, pin, Sum.elim_inl]
        push_cast
        norm_num
      simp only [this]
      rw [← Complex.ofReal_sum, Complex.ofReal_ne_zero]
      apply ne_of_gt
      have hs : l.shape = (3, 3) := (TLattice.make_shape_iff h (by norm_num)).2 (Or.inl rfl)
      have : Nonempty (Fin (l.shape.1 * l.shape.2)) := ⟨⟨0, by rw [hs]; norm_num⟩⟩
      apply Finset.sum_pos _ Finset.univ_nonempty
      intro k _
      have := hr k
      have := mu0c_pos
      have := Real.pi_pos
      have : 0 < l.area := by rw [har]; norm_num [unitCellArea]
      positivity
    rcases hcc : computeCurrents l (1 / 2) pin (S *ᵥ pin) (0, 0) with ⟨j1, j2, j3⟩
    rw [hcc] at hsum
    simp only at hsum ⊢
    rw [pyCheck_ok (by norm_num), ok_bind, pyCheck_ok hsum, ok_bind]
    exact ⟨_, _, _, rfl⟩
  obtain ⟨R, T, A, hfl⟩ := hfl
  exact ⟨l, S, V, Sint, S, pin, R, T, A, h, hS, hV, hint, (hneut S).1, fun i => rfl, hfl⟩

/-- Non-vacuity of the clear directions in C60: every order of that lattice at normal incidence. -/
theorem unit_tlattice_clear {pw : ℕ × ℕ} {ei ee : PyNum} {l : TLattice} (h : TLattice.make pw (1, 0) (0, 1) ei ee = .ok l)
    (hb : l.b = ((2 * Real.pi, 0), (0, 2 * Real.pi))) (k : Fin (l.shape.1 * l.shape.2)) :
    l.wave (0, 0) k = 0 ∨ 1 / 2 ^ 52 ≤ ‖(l.wave (0, 0) k).1‖ ^ 2 + ‖(l.wave (0, 0) k).2‖ ^ 2 := by
  obtain ⟨m, n, h1, h2⟩ := unit_tlattice_g h hb ((k : ℕ) % l.shape.1) ((k : ℕ) / l.shape.1)
  have hw : l.wave (0, 0) k = (((2 * Real.pi * m : ℝ) : ℂ), ((2 * Real.pi * n : ℝ) : ℂ)) := by
    simp only [TLattice.wave, flatT, h1, h2, zero_add]
  rw [hw]
  by_cases hmn : m = 0 ∧ n = 0
  · left; simp [hmn.1, hmn.2]
  · right
    simp only [Complex.norm_real, Real.norm_eq_abs, sq_abs]
    have hpi := Real.two_le_pi
    have key : (1 : ℝ) ≤ (m : ℝ) ^ 2 + (n : ℝ) ^ 2 := by
      have : 1 ≤ m ^ 2 + n ^ 2 := by
        have : 0 < m ^ 2 + n ^ 2 := by
          rcases not_and_or.1 hmn with e | e
          · have := sq_pos_of_ne_zero e |>.trans_le (le_add_of_nonneg_right (sq_nonneg n)); exact this
          · have := sq_pos_of_ne_zero e |>.trans_le (le_add_of_nonneg_left (sq_nonneg m)); exact this
        omega
      exact_mod_cast this
    have : (1 : ℝ) / 2 ^ 52 ≤ 1 := by norm_num
    nlinarith [sq_nonneg (m : ℝ), sq_nonneg (n : ℝ), mul_le_mul_of_nonneg_left hpi (by positivity : (0:ℝ) ≤ Real.pi)]

end C61

end Khepri
