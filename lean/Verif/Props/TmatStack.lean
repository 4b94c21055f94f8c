import Verif.Lemmas.ExampleTmatStack
import Verif.Props.Multilayer
import Verif.Props.TmatPhysics

/-!
# C91: stacks of uniform layers in the T-matrix interface
-/

namespace Khepri

open Matrix

section C91

variable {pw : ℕ × ℕ} {a1 a2 : R2} {ei ee : PyNum} {l : TLattice} {jv1 : ℝ → ℝ} {wl a b rI rE : ℝ}

/-- **C91.** A stack of uniform layers on a uniform medium, however its layers are sliced and its cascade grouped, multiplies
the two amplitudes of each order by the textbook coefficients of the stack (characteristic matrices), taken in the
convention `exp(-iωt)`: conjugated, for the conjugate permittivities.  The coefficients are for the tangential electric
field, hence the signs and the ratio of cosines of the p waves.  Nothing overflows: no denominator vanishes. -/
theorem C91_coefficients (h : TLattice.make pw a1 a2 ei ee = .ok l) (hp : pw.1 = pw.2 ∨ pw.2 = 1) (h0 : 0 < pw.1)
    (hI : l.epsI.val = rI) (hI0 : 0 < rI) (hE : l.epsE.val = rE) (hE0 : 0 < rE) (hw : 0 < wl) {data : List (ℂ × ℝ)}
    {S : Matrix (TIdx l.shape) (TIdx l.shape) ℂ} (hS : TStack jv1 l wl (↑a, ↑b) data S) {k : Fin (l.shape.1 * l.shape.2)}
    (hkE : flatT l.shape (l.kz l.epsE wl (↑a, ↑b)) k ≠ 0)
    (hc : l.wave (↑a, ↑b) k = 0 ∨ 1 / 2 ^ 52 ≤ ‖(l.wave (↑a, ↑b) k).1‖ ^ 2 + ‖(l.wave (↑a, ↑b) k).2‖ ^ 2)
    {κ2 : ℝ} (hκ : κ2 = l.inPlane wl (↑a, ↑b) k) (hg : ∀ x ∈ data, x.1 ≠ κ2) :
    (∀ pol, stackDenominator pol κ2 (2 * Real.pi / wl) (conjLayers data) rI rE ≠ 0) ∧
    ∀ p : TIdx l.shape → ℂ, (∀ i, p (.inr i) = 0) →
      (S *ᵥ p) (.inr (.inl k)) = star (reflection .te κ2 (2 * Real.pi / wl) (conjLayers data) rI rE) * p (.inl (.inl k)) ∧
      (S *ᵥ p) (.inl (.inl k)) = star (transmission .te κ2 (2 * Real.pi / wl) (conjLayers data) rI rE) * p (.inl (.inl k)) ∧
      (S *ᵥ p) (.inr (.inr k)) = -(star (reflection .tm κ2 (2 * Real.pi / wl) (conjLayers data) rI rE) * p (.inl (.inr k))) ∧
      star (outerKz (rE - κ2)) / Real.sqrt rE * (S *ᵥ p) (.inl (.inr k)) =
        star (transmission .tm κ2 (2 * Real.pi / wl) (conjLayers data) rI rE) *
          (star (outerKz (rI - κ2)) / Real.sqrt rI * p (.inl (.inr k))) := by
  subst hκ
  have hs : l.shape = pw := (TLattice.make_shape_iff h h0).2 (hp.imp_right le_of_eq)
  have hc' : l.wave (↑a, ↑b) k = 0 ∨ 1 / 2 ^ 52 ≤ uNorm (l.wave (↑a, ↑b) k) ^ 2 :=
    hc.imp_right fun hc => by rwa [uNorm, Real.sq_sqrt (by positivity)]
  obtain ⟨hD, hf⟩ := TLattice.stack_coefficients h hs hI hI0 hE hE0 hw hS hkE hc' hg
  refine ⟨hD, fun p hp => ?_⟩
  obtain ⟨c1, c2, c3, c4⟩ := hf p hp
  rw [TLattice.cosz_outer hE hE0 hw, TLattice.cosz_outer hI hI0 hw] at c4
  exact ⟨c1, c2, c3, c4⟩

/-- **C91.** The orders do not mix in such a stack: what goes out in an order is unchanged when the amplitudes of the other
orders are. -/
theorem C91_apart (h : TLattice.make pw a1 a2 ei ee = .ok l) (hp : pw.1 = pw.2 ∨ pw.2 = 1) (h0 : 0 < pw.1)
    (hI : l.epsI.val = rI) (hI0 : 0 < rI) {data : List (ℂ × ℝ)} {S : Matrix (TIdx l.shape) (TIdx l.shape) ℂ}
    (hS : TStack jv1 l wl (↑a, ↑b) data S) {k : Fin (l.shape.1 * l.shape.2)} {p q : TIdx l.shape → ℂ}
    (h1 : p (.inl (.inl k)) = q (.inl (.inl k))) (h2 : p (.inl (.inr k)) = q (.inl (.inr k)))
    (h3 : p (.inr (.inl k)) = q (.inr (.inl k))) (h4 : p (.inr (.inr k)) = q (.inr (.inr k))) :
    (S *ᵥ p) (.inl (.inl k)) = (S *ᵥ q) (.inl (.inl k)) ∧ (S *ᵥ p) (.inl (.inr k)) = (S *ᵥ q) (.inl (.inr k)) ∧
    (S *ᵥ p) (.inr (.inl k)) = (S *ᵥ q) (.inr (.inl k)) ∧ (S *ᵥ p) (.inr (.inr k)) = (S *ᵥ q) (.inr (.inr k)) := by
  have hs : l.shape = pw := (TLattice.make_shape_iff h h0).2 (hp.imp_right le_of_eq)
  have hIc : l.epsI.val ≠ 0 := by rw [hI]; exact_mod_cast hI0.ne'
  obtain ⟨-, -, Vi, Ve, hVi, hVe⟩ := TLattice.stack_V hS hIc (TLattice.rooted_of_real hI hI0)
  have key := TLattice.stack_weights h hs hS hVi hVe (fun i => if i = k then 1 else 0)
  have hpq : orderWeights (fun i => if i = k then (1 : ℂ) else 0) *ᵥ p = orderWeights (fun i => if i = k then (1 : ℂ) else 0) *ᵥ q := by
    funext i
    simp only [orderWeights, mulVec_diagonal]
    rcases i with (i | i) | (i | i) <;> by_cases e : i = k
    all_goals first
      | (subst e; simp [h1, h2, h3, h4])
      | simp [e]
  have e := (key p).symm.trans ((congrArg (S *ᵥ ·) hpq).trans (key q))
  refine ⟨?_, ?_, ?_, ?_⟩
  · have := congrFun e (.inl (.inl k)); simpa [orderWeights, mulVec_diagonal] using this
  · have := congrFun e (.inl (.inr k)); simpa [orderWeights, mulVec_diagonal] using this
  · have := congrFun e (.inr (.inl k)); simpa [orderWeights, mulVec_diagonal] using this
  · have := congrFun e (.inr (.inr k)); simpa [orderWeights, mulVec_diagonal] using this

/-- **C91.** At normal incidence the powers reported for light of any polarisation are those of the textbook: `|r|²`,
`√εE/√εI |t|²` and what is left. -/
theorem C91_fluxes (h : TLattice.make pw a1 a2 ei ee = .ok l) (hw : 0 < wl) (hI : l.epsI.val = rI) (hI0 : 0 < rI)
    (hE : l.epsE.val = rE) (hE0 : 0 < rE) {data : List (ℂ × ℝ)}
    {S : Matrix (TIdx l.shape) (TIdx l.shape) ℂ} (hS : TStack jv1 l wl (0, 0) data S) {s p : ℂ} (hsp : s ≠ 0 ∨ p ≠ 0)
    {pin0 : TIdx pw → ℂ} (h0 : tmatIncident pw 1 p s = .ok pin0) {pin : TIdx l.shape → ℂ}
    (h1 : fitVector pw l.shape pin0 = .ok pin) :
    computeFluxes l wl pin (S *ᵥ pin) (0, 0) =
      .ok (‖reflection .te 0 (2 * Real.pi / wl) (conjLayers data) rI rE‖ ^ 2,
        Real.sqrt rE / Real.sqrt rI * ‖transmission .te 0 (2 * Real.pi / wl) (conjLayers data) rI rE‖ ^ 2,
        1 - ‖reflection .te 0 (2 * Real.pi / wl) (conjLayers data) rI rE‖ ^ 2 -
          Real.sqrt rE / Real.sqrt rI * ‖transmission .te 0 (2 * Real.pi / wl) (conjLayers data) rI rE‖ ^ 2) :=
  TLattice.stack_fluxes h hw hI hI0 hE hE0 hS hsp h0 h1 (0, 0)

variable {N : ℕ} {lib : NumLib} {c c3 : Crystal N} {stack : List String} {m : Bool ⊕ List Bool} {Ls : List (Layer N)}
  {te tm : ℂ} {theta phi : ℝ} {kpo : Option (ℂ × ℂ)}

/-- The powers of a crystal of uniform layers at normal incidence, in terms of one polarisation. -/
theorem crystal_normal (he : EigContract (lib.eig N)) (hb : Built c.expansion) (hI0 : 0 < rI) (hE0 : 0 < rE)
    (hr : DeviceRun lib c stack m Ls rI rE wl te tm theta phi kpo (0, 0) c3) (hw : 0 < wl) {data : List (ℂ × ℝ)}
    (hd : List.Forall₂ (fun l x => l.form = .uniform x.1 ∧ l.depth = x.2) Ls data) (hz : ∀ x ∈ data, x.1 ≠ 0)
    {f : Crystal.Fluxes N} (hf : c3.poyntingFluxEnd = .ok f) :
    f.R = ‖reflection .te 0 (2 * Real.pi / wl) data rI rE‖ ^ 2 ∧
    f.T = Real.sqrt rE / Real.sqrt rI * ‖transmission .te 0 (2 * Real.pi / wl) data rI rE‖ ^ 2 := by
  obtain ⟨st, inc, -, hinc, -⟩ := hr.fluxes hw hf
  have hpn := (incident_eq_ok.1 hinc).2.1
  obtain ⟨hc, c1, c2, order, src, h1, h2, ho, h3, hs, hkp⟩ := hr
  obtain ⟨eR, eT⟩ := C70_fluxes he hb hc h1 h2 ho h3 hw hs hkp (Or.inl ⟨rfl, rfl⟩) hd (κ2 := 0) (by simp)
    (by simpa using hz) hf
  rw [(reflection_normal _ _ hI0 hE0).1] at eR
  rw [(reflection_normal _ _ hI0 hE0).2] at eT
  simp only [outerAdmittance_normal _ hI0, outerAdmittance_normal _ hE0, Complex.ofReal_re] at eT
  have hN : ‖te‖ ^ 2 + ‖tm‖ ^ 2 ≠ 0 := by
    intro h0
    apply hpn
    simp [polNorm, h0]
  rw [eR, eT]
  constructor
  · rw [← add_mul, mul_comm, mul_div_assoc, div_self hN, mul_one]
  · rw [← add_mul, mul_comm, mul_div_assoc, div_self hN, mul_one]

/-- **C91** (partial: the permittivities have to be conjugated from one interface to the other).  The T-matrix interface and
the crystal interface report the same reflectance and transmittance at normal incidence for the same stack of uniform
layers, whatever the lattices, the numbers of orders, the polarisations, the slicing and the grouping, when the permittivities
given to the one are the conjugates of those given to the other; so, the same for real permittivities. -/
theorem C91_agree_partial (h : TLattice.make pw a1 a2 ei ee = .ok l) (hw : 0 < wl) (hI : l.epsI.val = rI) (hI0 : 0 < rI)
    (hE : l.epsE.val = rE) (hE0 : 0 < rE) {data : List (ℂ × ℝ)}
    {S : Matrix (TIdx l.shape) (TIdx l.shape) ℂ} (hS : TStack jv1 l wl (0, 0) data S) {s p : ℂ} (hsp : s ≠ 0 ∨ p ≠ 0)
    {pin0 : TIdx pw → ℂ} (h0 : tmatIncident pw 1 p s = .ok pin0) {pin : TIdx l.shape → ℂ}
    (h1 : fitVector pw l.shape pin0 = .ok pin)
    (he : EigContract (lib.eig N)) (hb : Built c.expansion)
    (hr : DeviceRun lib c stack m Ls rI rE wl te tm theta phi kpo (0, 0) c3)
    (hd : List.Forall₂ (fun l x => l.form = .uniform (star x.1) ∧ l.depth = x.2) Ls data)
    {f : Crystal.Fluxes N} (hf : c3.poyntingFluxEnd = .ok f) :
    computeFluxes l wl pin (S *ᵥ pin) (0, 0) = .ok (f.R, f.T, 1 - f.R - f.T) := by
  have hz : ∀ x ∈ data, x.1 ≠ 0 := by
    obtain ⟨hsz, hlt, -⟩ := fitVector_eq_ok h0 h1
    obtain ⟨hsh, -, -⟩ := TLattice.fit_shape h hsz hlt
    refine TLattice.stack_nonzero (a := 0) (b := 0) (wl := wl) (jv1 := jv1) h hsh (S := S) ?_
    simpa using hS
  obtain ⟨eR, eT⟩ := crystal_normal he hb hI0 hE0 hr hw (data := conjLayers data)
    (by rw [conjLayers, List.forall₂_map_right_iff]; exact hd)
    (by
      intro x hx
      obtain ⟨y, hy, rfl⟩ := List.mem_map.1 hx
      exact star_ne_zero.2 (hz y hy)) hf
  rw [C91_fluxes h hw hI hI0 hE hE0 hS hsp h0 h1, eR, eT]

/-- **C91.** For the same complex permittivity the two interfaces do not agree: a plate of permittivity `-2i`, half a
wavelength thick, in vacuum at normal incidence, lets less light through in the crystal interface. -/
theorem C91_counterexample (jv1 : ℝ → ℝ) : ∃ (l : TLattice) (S : Matrix (TIdx l.shape) (TIdx l.shape) ℂ) (pin0 : TIdx (1, 1) → ℂ)
    (pin : TIdx l.shape → ℂ) (R T A : ℝ) (c c3 : Crystal 1) (Ls : List (Layer 1)) (f : Crystal.Fluxes 1),
    TLattice.make (1, 1) (1, 0) (0, 1) (.float 1) (.float 1) = .ok l ∧ TStack jv1 l 1 (0, 0) [(-2 * Complex.I, 1 / 2)] S ∧
    tmatIncident (1, 1) 1 0 1 = .ok pin0 ∧ fitVector (1, 1) l.shape pin0 = .ok pin ∧
    computeFluxes l 1 pin (S *ᵥ pin) (0, 0) = .ok (R, T, A) ∧
    DeviceRun plateLib c ["a"] (.inl true) Ls 1 1 1 1 0 0 0 (some (0, 0)) (0, 0) c3 ∧
    List.Forall₂ (fun l x => l.form = .uniform x.1 ∧ l.depth = x.2) Ls [(-2 * Complex.I, 1 / 2)] ∧
    c3.poyntingFluxEnd = .ok f ∧ f.T < T := by
  obtain ⟨l, S, h, hI, hE, hs, hS⟩ := lossy_tstack jv1
  obtain ⟨c3, f, hr, hf⟩ := lossy_run (te := 1) (tm := 0) (by simp [polNorm])
  obtain ⟨v, hv⟩ := C46_incident_exists (pw := (1, 1)) (by norm_num) (by norm_num) 1 0 1
  obtain ⟨pin, hpin⟩ := fitVector_exists (pw := (1, 1)) (s := l.shape) (by rw [hs]) v
  have hfl := C91_fluxes h one_pos hI one_pos hE one_pos hS (Or.inl one_ne_zero) hv hpin
  have hd : List.Forall₂ (fun (l : Layer 1) (x : ℂ × ℝ) => l.form = .uniform x.1 ∧ l.depth = x.2)
      [{ expansion := exampleExpansion, form := .uniform (-2 * Complex.I), depth := 1 / 2 }] [(-2 * Complex.I, 1 / 2)] :=
    .cons ⟨rfl, rfl⟩ .nil
  obtain ⟨-, eT⟩ := crystal_normal (plateLib_contract 1) exampleExpansion_built one_pos one_pos hr one_pos hd (by simp) hf
  refine ⟨l, S, v, pin, _, _, _, _, c3, _, f, h, hS, hv, hpin, hfl, hr, hd, hf, ?_⟩
  have e : conjLayers [(-2 * Complex.I, 1 / 2)] = [(2 * Complex.I, 1 / 2)] := by simp [conjLayers, Complex.conj_ofNat]
  rw [eT, e, div_one, div_self (by norm_num), one_mul, one_mul]
  exact lossy_differ

/-- Non-vacuity of C91: on 3 × 3 orders, a layer of permittivity 2 cut in 8 slices, at the specular order. -/
example (jv1 : ℝ → ℝ) : ∃ (l : TLattice) (S : Matrix (TIdx l.shape) (TIdx l.shape) ℂ) (k : Fin (l.shape.1 * l.shape.2)),
    TLattice.make (3, 3) (1, 0) (0, 1) (.float 1) (.float 1) = .ok l ∧ l.epsI.val = ((1 : ℝ) : ℂ) ∧ l.epsE.val = ((1 : ℝ) : ℂ) ∧
    TStack jv1 l (1 / 2) (((0 : ℝ) : ℂ), ((0 : ℝ) : ℂ)) [(2, 1 / 3)] S ∧
    flatT l.shape (l.kz l.epsE (1 / 2) (((0 : ℝ) : ℂ), ((0 : ℝ) : ℂ))) k ≠ 0 ∧ l.wave (((0 : ℝ) : ℂ), ((0 : ℝ) : ℂ)) k = 0 ∧
    l.inPlane (1 / 2) (((0 : ℝ) : ℂ), ((0 : ℝ) : ℂ)) k = 0 := by
  obtain ⟨l, h, hb⟩ := unit_tlattice (3, 3) rfl (.float 1) (.float 1)
  obtain ⟨-, -, -, -, h1, h2⟩ := TLattice.make_fields h
  have hs : l.shape = (3, 3) := (TLattice.make_shape_iff h (by norm_num)).2 (Or.inl rfl)
  have hI : l.epsI.val = ((1 : ℝ) : ℂ) := by rw [h1]; rfl
  have hE : l.epsE.val = ((1 : ℝ) : ℂ) := by rw [h2]; rfl
  have hm : l.epsE = l.epsI := by rw [h1, h2]
  have hk := unit3_kz h hb
  have hk0 : ∀ k, flatT l.shape (l.kz l.epsI (1 / 2) (((0 : ℝ) : ℂ), ((0 : ℝ) : ℂ))) k ≠ 0 := fun k => by
    obtain ⟨r, hr, e⟩ := hk k
    have z0 : (((0 : ℝ) : ℂ), ((0 : ℝ) : ℂ)) = (0, 0) := by simp
    rw [h1, z0, e]; exact_mod_cast hr.ne'
  obtain ⟨S, hS⟩ := C61_exists (jv1 := jv1) (islands := []) (host := 2) h (Or.inl rfl) (by norm_num) (by norm_num) (by simp)
    (by simp) (by simp) (by simp) (wl := 1 / 2) (by norm_num) hI one_pos hk0 (fun k => by
      obtain ⟨r, hr, e⟩ := hk k
      have z0 : (((0 : ℝ) : ℂ), ((0 : ℝ) : ℂ)) = (0, 0) := by simp
      rw [h1, z0, e, Complex.ofReal_im]) (1 / 3) 3
  obtain ⟨⟨U, hU⟩, V, hV⟩ := C44_exists (l := l) (wl := 1 / 2) (by norm_num) (by rw [hI]; simp)
    (by rw [h1]; intro r hr; cases hr; norm_num) hk0
  obtain ⟨Si, hSi, hn⟩ := C44_neutral hm hU hV
  obtain ⟨k0, -, gx0, gy0⟩ := TLattice.specular h hs (by norm_num)
  have hwave : l.wave (((0 : ℝ) : ℂ), ((0 : ℝ) : ℂ)) k0 = 0 := by simp [TLattice.wave, gx0, gy0]
  refine ⟨l, S, k0, h, hI, hE, .layers (.layer (by simp) hS) hSi (hn S).1, by rw [hm]; exact hk0 k0, hwave, ?_⟩
  rw [TLattice.inPlane, hwave]; simp

/-- Non-vacuity of `C91_agree_partial`: a plate of permittivity 4, a quarter wavelength thick, in vacuum, in both interfaces. -/
example (jv1 : ℝ → ℝ) : ∃ (l : TLattice) (S : Matrix (TIdx l.shape) (TIdx l.shape) ℂ) (pin0 : TIdx (1, 1) → ℂ)
    (pin : TIdx l.shape → ℂ) (c c3 : Crystal 1) (Ls : List (Layer 1)) (f : Crystal.Fluxes 1),
    TLattice.make (1, 1) (1, 0) (0, 1) (.float 1) (.float 1) = .ok l ∧ l.epsI.val = ((1 : ℝ) : ℂ) ∧ l.epsE.val = ((1 : ℝ) : ℂ) ∧
    TStack jv1 l 1 (0, 0) [(4, 1 / 4)] S ∧ tmatIncident (1, 1) 1 0 1 = .ok pin0 ∧ fitVector (1, 1) l.shape pin0 = .ok pin ∧
    Built c.expansion ∧ DeviceRun plateLib c ["a"] (.inl true) Ls 1 1 1 1 0 0 0 (some (0, 0)) (0, 0) c3 ∧
    List.Forall₂ (fun l x => l.form = .uniform (star x.1) ∧ l.depth = x.2) Ls [(4, 1 / 4)] ∧ c3.poyntingFluxEnd = .ok f := by
  obtain ⟨l, h, hb⟩ := unit_tlattice (1, 1) rfl (.float 1) (.float 1)
  obtain ⟨-, -, -, -, h1, h2⟩ := TLattice.make_fields h
  have hs : l.shape = (1, 1) := (TLattice.make_shape_iff h (by norm_num)).2 (Or.inl rfl)
  have hI : l.epsI.val = ((1 : ℝ) : ℂ) := by rw [h1]; rfl
  have hE : l.epsE.val = ((1 : ℝ) : ℂ) := by rw [h2]; rfl
  have hm : l.epsE = l.epsI := by rw [h1, h2]
  have z0 : (((0 : ℝ) : ℂ), ((0 : ℝ) : ℂ)) = (0, 0) := by simp
  obtain ⟨k0, -, gx0, gy0⟩ := TLattice.specular h hs (by norm_num)
  have hkk : ∀ k : Fin (l.shape.1 * l.shape.2), k = k0 := by
    intro k
    have a := k.2
    have b := k0.2
    have c : l.shape.1 * l.shape.2 = 1 := by rw [hs]; rfl
    apply Fin.ext
    omega
  have hpi := Real.pi_pos
  have hk : ∀ k, flatT l.shape (l.kz l.epsI 1 (((0 : ℝ) : ℂ), ((0 : ℝ) : ℂ))) k = ((Real.sqrt 1 * (2 * Real.pi / 1) : ℝ) : ℂ) := by
    intro k
    rw [hkk k, z0, TLattice.specular_kz hI one_pos one_pos gx0 gy0]
  have hk0 : ∀ k, flatT l.shape (l.kz l.epsI 1 (((0 : ℝ) : ℂ), ((0 : ℝ) : ℂ))) k ≠ 0 := fun k => by
    rw [hk k]; exact_mod_cast (by positivity : Real.sqrt 1 * (2 * Real.pi / 1) ≠ 0)
  obtain ⟨S, hS⟩ := C61_exists (jv1 := jv1) (islands := []) (host := 4) h (Or.inl rfl) (by norm_num) (by norm_num) (by simp)
    (by simp) (by simp) (by simp) one_ne_zero hI one_pos hk0 (fun k => by rw [hk k, Complex.ofReal_im]) (1 / 4) 0
  obtain ⟨⟨U, hU⟩, V, hV⟩ := C44_exists (l := l) one_ne_zero (by rw [hI]; simp) (by rw [h1]; intro r hr; cases hr; norm_num) hk0
  obtain ⟨Si, hSi, hn⟩ := C44_neutral hm hU hV
  rw [z0] at hS hSi
  obtain ⟨v, hv⟩ := C46_incident_exists (pw := (1, 1)) (by norm_num) (by norm_num) 1 0 1
  obtain ⟨pin, hpin⟩ := fitVector_exists (pw := (1, 1)) (s := l.shape) (by rw [hs]) v
  have hu := normal_uniform (ι := Fin 1) two_pos
  have e4 : ((2 : ℝ) : ℂ) ^ 2 = 4 := by norm_num
  have e2 : ((2 : ℝ) : ℂ) = 2 := by norm_num
  rw [e4, e2] at hu
  have hr : ∃ r, (Form.uniform 4).solve plateLib exampleExpansion (1 / 4) (0, 0) 1 = .ok r := by
    have hk : (2 * Real.pi / 1 : ℝ) = 2 * Real.pi := div_one _
    simp only [Form.solve, example_kVectors, ok_bind, normal_freeSpace, hu, hk, halfWave]
    rw [inverseEps, if_neg (by simp), ok_bind]
    exact ⟨_, rfl⟩
  obtain ⟨r, hr⟩ := hr
  have hg : ∀ i, 1 - orderKx exampleExpansion (0, 0) 1 i ^ 2 - orderKy exampleExpansion (0, 0) 1 i ^ 2 ≠ 0 := by
    intro i; simp [orderKx, orderKy, exampleExpansion]
  obtain ⟨c3, st, hd, -, -, h2⟩ := oneLayer_run plateLib exampleExpansion one_pos hg 1 0 (theta := 0) (phi := 0)
    (kpo := some (0, 0)) (by simp [Crystal.orDefault]) (f := .uniform 4) (by simp [Form.isLayer])
    (d := 1 / 4) (r := r) (by simpa only [Complex.ofReal_zero] using hr) true
  obtain ⟨f, hf⟩ := h2 one_pos (by simp [polNorm]) (by simp) (.inl ⟨rfl, rfl⟩)
  exact ⟨l, S, v, pin, _, c3, _, f, h, hI, hE, .layers (.layer (by simp) hS) hSi (hn S).1, hv, hpin, exampleExpansion_built, hd,
    .cons ⟨by simp, rfl⟩ .nil, hf⟩

end C91

end Khepri
