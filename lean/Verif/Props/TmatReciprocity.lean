import Verif.Lemmas.TmatReciprocity
import Verif.Props.TmatPassive

/-!
# C100: T-matrix devices are reciprocal
-/

namespace Khepri

open Matrix Complex

variable {pw : ℕ × ℕ} {a1 a2 : R2} {ei ee : PyNum} {l : TLattice} {jv1 : ℝ → ℝ} {wl : ℝ} {a b : ℝ}
  {islands : List (TShape × ℂ)} {host : ℂ}

/-- **C100.** In grids of odd sizes every order has its opposite: numbered backwards, of opposite wave vector and of the
same `kz` at the opposite in-plane wave vector. -/
theorem C100_orders (h : TLattice.make pw a1 a2 ei ee = .ok l) (hp : pw.1 = pw.2 ∨ pw.2 = 1) (ho : pw.1 % 2 = 1)
    (k : Fin (l.shape.1 * l.shape.2)) :
    flatT l.shape l.gx k.rev = -flatT l.shape l.gx k ∧ flatT l.shape l.gy k.rev = -flatT l.shape l.gy k ∧
      ∀ eps, flatT l.shape (l.kz eps wl (((-a : ℝ) : ℂ), ((-b : ℝ) : ℂ))) k.rev = flatT l.shape (l.kz eps wl (↑a, ↑b)) k := by
  have hs := (TLattice.make_shape_iff h (by omega)).2 (hp.imp_right le_of_eq)
  have h2 : pw.2 % 2 = 1 := by rcases hp with hp | hp <;> omega
  obtain ⟨g1, g2⟩ := TLattice.g_rev h hs ho h2 k
  exact ⟨g1, g2, fun eps => TLattice.kz_rev h hs ho h2 eps k⟩

/-- **C100** (even grids). In grids of even size the first order has no opposite: the waves of a device at an in-plane wave
vector are not those of the same device at the opposite one. -/
theorem C100_even (h : TLattice.make pw a1 a2 ei ee = .ok l) (hp : pw.1 = pw.2 ∨ pw.2 = 1) (h0 : 0 < pw.1) (ho : pw.1 % 2 = 0)
    {k : Fin (l.shape.1 * l.shape.2)} (hk : (k : ℕ) = 0) (k' : Fin (l.shape.1 * l.shape.2)) :
    ¬ (flatT l.shape l.gx k' = -flatT l.shape l.gx k ∧ flatT l.shape l.gy k' = -flatT l.shape l.gy k) := by
  rintro ⟨e1, e2⟩
  have hs := (TLattice.make_shape_iff h h0).2 (hp.imp_right le_of_eq)
  obtain ⟨-, -, hrec, -⟩ := TLattice.make_fields h
  obtain ⟨hd, hb⟩ := reciproc_eq_ok.1 hrec
  have o := TLattice.ord_wave h hs k
  have o' := TLattice.ord_wave h hs k'
  simp only [latticeVec, Prod.mk.injEq] at o o'
  rw [o.1, o'.1] at e1
  rw [o.2, o'.2] at e2
  have key : ∀ mn : ℤ × ℤ, a1.1 * (l.b.1.1 * mn.1 + l.b.2.1 * mn.2) + a1.2 * (l.b.1.2 * mn.1 + l.b.2.2 * mn.2) =
      2 * Real.pi * mn.1 := by
    intro mn
    rw [hb]
    simp only
    field_simp
    ring
  have e3 : 2 * Real.pi * (l.ord k').1 = -(2 * Real.pi * (l.ord k).1) := by
    rw [← key, ← key, e1, e2]; ring
  have e4 : ((l.ord k').1 : ℝ) = -(l.ord k).1 := by
    have := Real.pi_pos
    have h2 : (2 * Real.pi) * (((l.ord k').1 : ℝ) + (l.ord k).1) = 0 := by linarith
    rcases mul_eq_zero.1 h2 with h3 | h3
    · linarith
    · linarith
  have e5 : (l.ord k').1 = -(l.ord k).1 := by exact_mod_cast e4
  have hs1 : l.shape.1 = pw.1 := by rw [hs]
  have hlt : (k' : ℕ) % l.shape.1 < l.shape.1 := Nat.mod_lt _ (by omega)
  simp only [TLattice.ord, hk, Nat.zero_mod] at e5
  omega

/-- **C100.** A layer is reciprocal, whatever its islands (overlapping or not) and its media (lossy, with gain or not), and
whatever the slicings used at the two wave vectors. -/
theorem C100_layer (h : TLattice.make pw a1 a2 ei ee = .ok l) (hp : pw.1 = pw.2 ∨ pw.2 = 1) (ho : pw.1 % 2 = 1)
    {depth : ℝ} {k k' : ℕ} {S V S' V' : Matrix (TIdx l.shape) (TIdx l.shape) ℂ}
    (hS : tmatScattering jv1 l islands host wl (↑a, ↑b) depth k = .ok S) (hV : l.V l.epsI wl (↑a, ↑b) = .ok V)
    (hS' : tmatScattering jv1 l islands host wl (((-a : ℝ) : ℂ), ((-b : ℝ) : ℂ)) depth k' = .ok S')
    (hV' : l.V l.epsI wl (((-a : ℝ) : ℂ), ((-b : ℝ) : ℂ)) = .ok V') : TReciprocal V V S V' V' S' := by
  have hs := (TLattice.make_shape_iff h (by omega)).2 (hp.imp_right le_of_eq)
  exact TLattice.layer_reciprocal h hs ho (by rcases hp with hp | hp <;> omega) hS hV hS' hV'

/-- **C100.** So is the interface to the medium of emergence. -/
theorem C100_interface {S Vi Ve S' Vi' Ve' : Matrix (TIdx l.shape) (TIdx l.shape) ℂ}
    (hS : tmatInterface l wl (↑a, ↑b) = .ok S) (hi : l.V l.epsI wl (↑a, ↑b) = .ok Vi) (he : l.V l.epsE wl (↑a, ↑b) = .ok Ve)
    (hS' : tmatInterface l wl (((-a : ℝ) : ℂ), ((-b : ℝ) : ℂ)) = .ok S')
    (hi' : l.V l.epsI wl (((-a : ℝ) : ℂ), ((-b : ℝ) : ℂ)) = .ok Vi')
    (he' : l.V l.epsE wl (((-a : ℝ) : ℂ), ((-b : ℝ) : ℂ)) = .ok Ve') : TReciprocal Vi Ve S Vi' Ve' S' := by
  intro u v u' v' hu hu'
  rw [(TLattice.interface_relates hS hi he u v).1 hu, (TLattice.interface_relates hS' hi' he' u' v').1 hu']

section Cascade
variable {N : ℕ} {Va Vb Vc Vi Ve Va' Vb' Vc' Vi' Ve' :
    Matrix ((Fin N ⊕ Fin N) ⊕ (Fin N ⊕ Fin N)) ((Fin N ⊕ Fin N) ⊕ (Fin N ⊕ Fin N)) ℂ}
  {S0 S1 S2 Sint S S0' S1' S2' Sint' S' : Matrix ((Fin N ⊕ Fin N) ⊕ (Fin N ⊕ Fin N)) ((Fin N ⊕ Fin N) ⊕ (Fin N ⊕ Fin N)) ℂ}

/-- **C100.** Cascades of reciprocal parts are reciprocal. -/
theorem C100_cascade (h1 : TReciprocal Va Vb S1 Va' Vb' S1') (h2 : TReciprocal Vb Vc S2 Vb' Vc' S2')
    (h : multS S1 S2 = .ok S) (h' : multS S1' S2' = .ok S') : TReciprocal Va Vc S Va' Vc' S' := by
  intro u w u' w' hu hu'
  obtain ⟨v, hv1, hv2⟩ := (multS_chain h u w).1 hu
  obtain ⟨v', hv1', hv2'⟩ := (multS_chain h' u' w').1 hu'
  exact (h1 u v u' v' hv1 hv1').trans (h2 v w v' w' hv2 hv2')

/-- **C100.** So are devices: layers, then the interface. -/
theorem C100_device {layers layers' : List (Matrix ((Fin N ⊕ Fin N) ⊕ (Fin N ⊕ Fin N)) ((Fin N ⊕ Fin N) ⊕ (Fin N ⊕ Fin N)) ℂ)}
    (h0 : TReciprocal Vi Vi S0 Vi' Vi' S0') (hl : List.Forall₂ (fun X X' => TReciprocal Vi Vi X Vi' Vi' X') layers layers')
    (hint : TReciprocal Vi Ve Sint Vi' Ve' Sint')
    (h1 : layers.foldlM multS S0 = .ok S1) (h : multS S1 Sint = .ok S)
    (h1' : layers'.foldlM multS S0' = .ok S1') (h' : multS S1' Sint' = .ok S') : TReciprocal Vi Ve S Vi' Ve' S' := by
  refine C100_cascade ?_ hint h h'
  clear h h' hint
  induction hl generalizing S0 S0' with
  | nil => cases h1; cases h1'; exact h0
  | cons hx _ ih =>
    rw [List.foldlM_cons, bind_eq_ok] at h1 h1'
    obtain ⟨X, hX, h1⟩ := h1
    obtain ⟨X', hX', h1'⟩ := h1'
    exact ih (C100_cascade h0 hx hX hX') h1 h1'

end Cascade

/-- **C100.** In terms of the entries of the S-matrices: what comes out with `y` reversed when `x` enters is, up to `kz` and
sign, what comes out with `x` reversed when `y` enters, at the opposite in-plane wave vector. `x` and `y` are waves that
enter: from the left or from the right, in any order and polarisation, propagating or not. -/
theorem C100_entries (h : TLattice.make pw a1 a2 ei ee = .ok l) (hp : pw.1 = pw.2 ∨ pw.2 = 1) (ho : pw.1 % 2 = 1)
    {S Vi Ve S' Vi' Ve' : Matrix (TIdx l.shape) (TIdx l.shape) ℂ}
    (hi : l.V l.epsI wl (↑a, ↑b) = .ok Vi) (he : l.V l.epsE wl (↑a, ↑b) = .ok Ve)
    (hi' : l.V l.epsI wl (((-a : ℝ) : ℂ), ((-b : ℝ) : ℂ)) = .ok Vi')
    (he' : l.V l.epsE wl (((-a : ℝ) : ℂ), ((-b : ℝ) : ℂ)) = .ok Ve') (hr : TReciprocal Vi Ve S Vi' Ve' S')
    (x y : TIdx l.shape) :
    l.weights wl (↑a, ↑b) x * S' (Sum.map oppWave oppWave x).swap (Sum.map oppWave oppWave y) =
      l.weights wl (↑a, ↑b) y * S y.swap x := by
  have hs := (TLattice.make_shape_iff h (by omega)).2 (hp.imp_right le_of_eq)
  have h2 : pw.2 % 2 = 1 := by rcases hp with hp | hp <;> omega
  have hw := (TLattice.V_ok hi).1
  have hc : (wl / (Real.pi * mu0c) : ℂ) ≠ 0 := by
    have h1 : (wl : ℂ) ≠ 0 := by exact_mod_cast hw
    have h2 : (Real.pi : ℂ) ≠ 0 := by exact_mod_cast Real.pi_ne_zero
    have h3 : (mu0c : ℂ) ≠ 0 := by exact_mod_cast mu0c_pos.ne'
    simp [*]
  refine entries_of_forms (ρ := oppWave) (fun i => by rcases i with i | i <;> simp [oppWave]) (fun u v u' v' hu hu' => ?_) x y
  have := hr u v u' v' hu hu'
  rw [TLattice.lorentz_waves h hs ho h2 hi hi', TLattice.lorentz_waves h hs ho h2 he he'] at this
  exact mul_left_cancel₀ hc this

/-- **C100.** In terms of power, between waves that carry some: the share of the power of `x` that leaves with `y` reversed
is the share of the power of `y` that leaves with `x` reversed at the opposite in-plane wave vector. -/
theorem C100_power (h : TLattice.make pw a1 a2 ei ee = .ok l) (hp : pw.1 = pw.2 ∨ pw.2 = 1) (ho : pw.1 % 2 = 1)
    {S Vi Ve S' Vi' Ve' : Matrix (TIdx l.shape) (TIdx l.shape) ℂ}
    (hi : l.V l.epsI wl (↑a, ↑b) = .ok Vi) (he : l.V l.epsE wl (↑a, ↑b) = .ok Ve)
    (hi' : l.V l.epsI wl (((-a : ℝ) : ℂ), ((-b : ℝ) : ℂ)) = .ok Vi')
    (he' : l.V l.epsE wl (((-a : ℝ) : ℂ), ((-b : ℝ) : ℂ)) = .ok Ve') (hr : TReciprocal Vi Ve S Vi' Ve' S')
    {x y : TIdx l.shape} (hx : l.weights wl (↑a, ↑b) x ≠ 0) (hy : l.weights wl (↑a, ↑b) y ≠ 0) :
    ‖l.weights wl (↑a, ↑b) y‖ * ‖S y.swap x‖ ^ 2 / ‖l.weights wl (↑a, ↑b) x‖ =
      ‖l.weights wl (↑a, ↑b) x‖ * ‖S' (Sum.map oppWave oppWave x).swap (Sum.map oppWave oppWave y)‖ ^ 2 /
        ‖l.weights wl (↑a, ↑b) y‖ := by
  have e := congrArg (‖·‖) (C100_entries h hp ho hi he hi' he' hr x y)
  simp only [norm_mul] at e
  have n1 := norm_pos_iff.2 hx
  have n2 := norm_pos_iff.2 hy
  rw [div_eq_div_iff n1.ne' n2.ne']
  have : ∀ p q s t : ℝ, p * t = q * s → q * s ^ 2 * q = p * t ^ 2 * p := fun p q s t h => by
    have : (p * t) ^ 2 = (q * s) ^ 2 := by rw [h]
    linarith
  exact this _ _ _ _ e

/-- **C100.** The weights are `kz` up to sign. -/
theorem C100_weights (l : TLattice) (wl : ℝ) (kp : ℂ × ℂ) (k : Fin (l.shape.1 * l.shape.2)) :
    ‖l.weights wl kp (.inl (.inl k))‖ = ‖flatT l.shape (l.kz l.epsI wl kp) k‖ ∧
    ‖l.weights wl kp (.inl (.inr k))‖ = ‖flatT l.shape (l.kz l.epsI wl kp) k‖ ∧
    ‖l.weights wl kp (.inr (.inl k))‖ = ‖flatT l.shape (l.kz l.epsE wl kp) k‖ ∧
    ‖l.weights wl kp (.inr (.inr k))‖ = ‖flatT l.shape (l.kz l.epsE wl kp) k‖ := by
  have hf : ‖l.flip kp k‖ = 1 := by unfold TLattice.flip; split_ifs <;> simp
  simp [TLattice.weights, TLattice.weight, hf]

/-- On 3 × 3 orders of a square lattice of period 1 in vacuum, at wavelength 1/2, every order propagates at small in-plane
wave vectors too. -/
theorem unit3_kz_oblique {l : TLattice} (h : TLattice.make (3, 3) (1, 0) (0, 1) (.float 1) (.float 1) = .ok l)
    (hb : l.b = ((2 * Real.pi, 0), (0, 2 * Real.pi))) {a : ℝ} (ha : |a| ≤ 1) (k : Fin (l.shape.1 * l.shape.2)) :
    ∃ r : ℝ, 0 < r ∧ flatT l.shape (l.kz (.float 1) (1 / 2) (↑a, ((0 : ℝ) : ℂ))) k = r := by
  have hs : l.shape = (3, 3) := (TLattice.make_shape_iff h (by norm_num)).2 (Or.inl rfl)
  have hs1 : l.shape.1 = 3 := by rw [hs]
  have hs2 : l.shape.2 = 3 := by rw [hs]
  have hk := k.2
  simp only [hs1, hs2] at hk
  have bound : ∀ i : ℕ, i < 3 → |(i : ℝ) - ((3 / 2 : ℕ) : ℝ)| ≤ 1 := by
    intro i hi
    interval_cases i <;> norm_num
  set i := (k : ℕ) % l.shape.1 with hi
  set j := (k : ℕ) / l.shape.1 with hj
  have b1 := bound i (by rw [hi]; have := Nat.mod_lt (k : ℕ) (show 0 < l.shape.1 by omega); omega)
  have b2 := bound j (by rw [hj]; refine Nat.div_lt_of_lt_mul ?_; omega)
  set x := (i : ℝ) - ((3 / 2 : ℕ) : ℝ)
  set y := (j : ℝ) - ((3 / 2 : ℕ) : ℝ)
  have hgx : l.gx i j = 2 * Real.pi * x := by rw [(TLattice.make_gx h i j).1, hb]; simp [x]
  have hgy : l.gy i j = 2 * Real.pi * y := by rw [(TLattice.make_gx h i j).2, hb]; simp [y]
  have hpi := Real.pi_gt_three
  have hr : 0 < 1 * (2 * Real.pi / (1 / 2)) ^ 2 - ((a + 2 * Real.pi * x) ^ 2 + (2 * Real.pi * y) ^ 2) := by
    have c1 : |a + 2 * Real.pi * x| ≤ 1 + 2 * Real.pi := by
      refine (abs_add_le _ _).trans (add_le_add ha ?_)
      rw [abs_mul, abs_of_pos (by positivity : 0 < 2 * Real.pi)]
      nlinarith
    have c2 : |2 * Real.pi * y| ≤ 2 * Real.pi := by
      rw [abs_mul, abs_of_pos (by positivity : 0 < 2 * Real.pi)]
      nlinarith
    have d1 := sq_le_sq' (abs_le.1 c1).1 (abs_le.1 c1).2
    have d2 := sq_le_sq' (abs_le.1 c2).1 (abs_le.1 c2).2
    nlinarith
  refine ⟨Real.sqrt _, Real.sqrt_pos.2 hr, ?_⟩
  simp only [flatT, TLattice.kz, PyNum.val]
  rw [← hi, ← hj, hgx, hgy, Complex.ofReal_zero]
  exact computeKz_pos (Real.sqrt_pos.2 hr) (Real.sq_sqrt hr.le).symm

/-- Non-vacuity of C100: a lossy disc in a lossy host, 3 × 3 orders, at oblique incidence: the layers exist at both in-plane
wave vectors, and every wave carries some power. -/
example : ∃ (jv1 : ℝ → ℝ) (l : TLattice), TLattice.make (3, 3) (1, 0) (0, 1) (.float 1) (.float 1) = .ok l ∧
    ∀ depth : ℝ, 0 ≤ depth → ∀ k k', ∃ S S' V V',
    tmatScattering jv1 l [(.shape (.disc (1 / 4) (1 / 2) (1 / 5)), 4 + I)] (2 + I) (1 / 2) (((1 : ℝ) : ℂ), ((0 : ℝ) : ℂ)) depth k
      = .ok S ∧
    tmatScattering jv1 l [(.shape (.disc (1 / 4) (1 / 2) (1 / 5)), 4 + I)] (2 + I) (1 / 2) (((-1 : ℝ) : ℂ), ((-0 : ℝ) : ℂ)) depth k'
      = .ok S' ∧
    l.V l.epsI (1 / 2) (((1 : ℝ) : ℂ), ((0 : ℝ) : ℂ)) = .ok V ∧ l.V l.epsI (1 / 2) (((-1 : ℝ) : ℂ), ((-0 : ℝ) : ℂ)) = .ok V' ∧
    TReciprocal V V S V' V' S' ∧ ∀ x, l.weights (1 / 2) (((1 : ℝ) : ℂ), ((0 : ℝ) : ℂ)) x ≠ 0 := by
  obtain ⟨jv1, hJ⟩ : ∃ jv1, BesselOne jv1 := ⟨_, fun _ => rfl⟩
  obtain ⟨l, h, hb⟩ := unit_tlattice (3, 3) rfl (.float 1) (.float 1)
  obtain ⟨-, -, -, har, h1, h2⟩ := TLattice.make_fields h
  have hper : Periods l.b := hb ▸ unit_periods
  have hv1 : l.epsI.val = ((1 : ℝ) : ℂ) := by rw [h1]; rfl
  set isl : List (TShape × ℂ) := [(.shape (.disc (1 / 4) (1 / 2) (1 / 5)), 4 + I)] with hisl
  have hD : Discs isl := by
    intro d hd
    simp only [hisl, List.mem_cons, List.not_mem_nil, or_false] at hd
    exact .inr ⟨1 / 4, 1 / 2, 1 / 5, by rw [hd]⟩
  have hlossy : LossyIslands ((1, 0), (0, 1)) isl (2 + I) 1 (1 / 100) := by
    refine ⟨?_, ⟨by simp, ?_⟩, ?_⟩
    · have := laid_example (4 + I) 1
      exact ⟨fun s hs => this.proper s (by simp [tPattern, hisl] at hs; simp [hs]),
        this.cell.imp fun o ho s hs => ho s (by simp [tPattern, hisl] at hs; simp [hs]), List.pairwise_singleton _ _⟩
    · rw [one_div, inv_im, normSq_apply]; norm_num
    · intro d hd
      simp only [hisl, List.mem_cons, List.not_mem_nil, or_false] at hd
      subst hd
      refine ⟨by simp, ?_⟩
      rw [one_div, inv_im, normSq_apply]; norm_num
  have hk : ∀ a : ℝ, |a| ≤ 1 → ∀ k, flatT l.shape (l.kz l.epsI (1 / 2) (↑a, ((0 : ℝ) : ℂ))) k ≠ 0 := by
    intro a ha k
    obtain ⟨r, hr, e⟩ := unit3_kz_oblique h hb ha k
    rw [h1, e]
    exact_mod_cast hr.ne'
  have hV := fun kp => TLattice.V_exists (l := l) (kp := kp) (wl := 1 / 2) (eps := l.epsI) (by norm_num) (by rw [hv1]; simp)
    (by rw [h1]; simp [TLattice.Rooted])
  refine ⟨jv1, l, h, fun depth hd k k' => ?_⟩
  have hex := fun (a : ℝ) ha k => C99_exists hJ h (Or.inl rfl) (by norm_num) hper hlossy
    (by rw [discs_tol l hD id]; norm_num) (by rw [discs_tol l hD (1 / ·)]; norm_num) (wl := 1 / 2) (by norm_num) hv1 one_pos (hk a ha) hd k
  obtain ⟨S, hS⟩ := hex 1 (by norm_num) k
  obtain ⟨S', hS'⟩ := hex (-1) (by norm_num) k'
  obtain ⟨V, hV1⟩ := hV (((1 : ℝ) : ℂ), ((0 : ℝ) : ℂ))
  obtain ⟨V', hV2⟩ := hV (((-1 : ℝ) : ℂ), ((-0 : ℝ) : ℂ))
  rw [← neg_zero (G := ℝ)] at hS'
  refine ⟨S, S', V, V', hS, by simpa using hS', hV1, hV2, C100_layer h (Or.inl rfl) rfl hS hV1 (by simpa using hS') hV2, fun x => ?_⟩
  have hE : l.epsE = l.epsI := by rw [h1, h2]
  rw [← norm_ne_zero_iff]
  rcases x with (i | i) | (i | i)
  · rw [(C100_weights l _ _ i).1, norm_ne_zero_iff]; exact hk 1 (by norm_num) i
  · rw [(C100_weights l _ _ i).2.1, norm_ne_zero_iff]; exact hk 1 (by norm_num) i
  · rw [(C100_weights l _ _ i).2.2.1, norm_ne_zero_iff, hE]; exact hk 1 (by norm_num) i
  · rw [(C100_weights l _ _ i).2.2.2, norm_ne_zero_iff, hE]; exact hk 1 (by norm_num) i

end Khepri
