import Verif.Spec.TmatStack
import Verif.Lemmas.TmatFresnel
import Verif.Lemmas.Multilayer
import Mathlib.Analysis.SpecialFunctions.Trigonometric.Deriv

/-! Stacks of uniform layers in the T-matrix formulation. -/

set_option linter.unusedSectionVars false

namespace Khepri

open Matrix Complex

/-! ### One polarisation of one order -/

/-- `A' = i k α B`, `B' = i k β A`: from one plane to another. -/
theorem scalar_flow {A B : ℝ → ℂ} {k α β q : ℂ} (hq : q ≠ 0) (h2 : q ^ 2 = α * β)
    (hA : ∀ z, HasDerivAt A (I * k * α * B z) z) (hB : ∀ z, HasDerivAt B (I * k * β * A z) z) (d : ℝ) :
    A 0 = Complex.cos (q * (d * k)) * A d - I * (α / q) * Complex.sin (q * (d * k)) * B d ∧
    B 0 = -(I * (β / q)) * Complex.sin (q * (d * k)) * A d + Complex.cos (q * (d * k)) * B d := by
  have hph : ∀ z : ℝ, HasDerivAt (fun t : ℝ => q * ((t : ℂ) * k)) (q * k) z := fun z => by
    simpa using ((Complex.ofRealCLM.hasDerivAt (x := z)).mul_const k).const_mul q
  have hc : ∀ z : ℝ, HasDerivAt (fun t : ℝ => Complex.cos (q * ((t : ℂ) * k))) (-Complex.sin (q * (z * k)) * (q * k)) z :=
    fun z => HasDerivAt.comp z (Complex.hasDerivAt_cos _) (hph z)
  have hs : ∀ z : ℝ, HasDerivAt (fun t : ℝ => Complex.sin (q * ((t : ℂ) * k))) (Complex.cos (q * (z * k)) * (q * k)) z :=
    fun z => HasDerivAt.comp z (Complex.hasDerivAt_sin _) (hph z)
  have h1 : ∀ z : ℝ, HasDerivAt (fun t : ℝ => Complex.cos (q * ((t : ℂ) * k)) * A t -
      I * (α / q) * (Complex.sin (q * (t * k)) * B t)) 0 z := fun z => by
    have := ((hc z).mul (hA z)).sub (((hs z).mul (hB z)).const_mul (I * (α / q)))
    refine this.congr_deriv ?_
    have e : α / q * β = q := by rw [div_mul_eq_mul_div, ← h2, pow_two, mul_div_assoc, div_self hq, mul_one]
    have e' : α / q * q = α := div_mul_cancel₀ _ hq
    linear_combination (-(I * I * k * Complex.sin (q * (z * k)) * A z)) * e - q * k * Complex.sin (q * (z * k)) * A z * I_mul_I -
      I * k * Complex.cos (q * (z * k)) * B z * e'
  have h3 : ∀ z : ℝ, HasDerivAt (fun t : ℝ => -(I * (β / q)) * (Complex.sin (q * (t * k)) * A t) +
      Complex.cos (q * ((t : ℂ) * k)) * B t) 0 z := fun z => by
    have := (((hs z).mul (hA z)).const_mul (-(I * (β / q)))).add ((hc z).mul (hB z))
    refine this.congr_deriv ?_
    have e : β / q * α = q := by rw [div_mul_eq_mul_div, mul_comm, ← h2, pow_two, mul_div_assoc, div_self hq, mul_one]
    have e' : β / q * q = β := div_mul_cancel₀ _ hq
    linear_combination (-(I * I * k * Complex.sin (q * (z * k)) * B z)) * e - q * k * Complex.sin (q * (z * k)) * B z * I_mul_I -
      I * k * Complex.cos (q * (z * k)) * A z * e'
  have c1 := is_const_of_deriv_eq_zero (fun t => (h1 t).differentiableAt) (fun t => (h1 t).deriv) d 0
  have c2 := is_const_of_deriv_eq_zero (fun t => (h3 t).differentiableAt) (fun t => (h3 t).deriv) d 0
  simp only [ofReal_zero, zero_mul, mul_zero, Complex.cos_zero, Complex.sin_zero, one_mul, sub_zero, zero_add] at c1 c2
  exact ⟨by rw [← c1]; ring, by rw [← c2]; ring⟩

/-- Tangential fields of a polarisation, for the in-plane direction `(x, y)`. -/
noncomputable def polPart (pol : Polarisation) (x y Ex Ey Hx Hy : ℂ) : Fin 2 → ℂ :=
  match pol with
  | .te => ![y * Ex - x * Ey, mu0c * (x * Hx + y * Hy)]
  | .tm => ![x * Ex + y * Ey, -(mu0c * (y * Hx - x * Hy))]

/-- The same for an order of a vector of fields. -/
noncomputable def TLattice.polAt (l : TLattice) (kp : ℂ × ℂ) (pol : Polarisation) (k : Fin (l.shape.1 * l.shape.2))
    (f : TIdx l.shape → ℂ) : Fin 2 → ℂ :=
  polPart pol (l.dir kp k).1 (l.dir kp k).2 (f (.inl (.inl k))) (f (.inl (.inr k))) (f (.inr (.inl k))) (f (.inr (.inr k)))

/-- Characteristic matrices in the other time convention. -/
theorem charMatrix_star (η δ : ℂ) : (charMatrix η δ).map star =
    !![Complex.cos (star δ), -(I * Complex.sin (star δ) / star η); -(I * star η * Complex.sin (star δ)), Complex.cos (star δ)] := by
  ext i j
  fin_cases i <;> fin_cases j <;> simp [charMatrix, Complex.cos_conj, Complex.sin_conj, neg_div]

theorem abeles_star_cons (pol : Polarisation) (κ2 k0 : ℝ) (eps : ℂ) (d : ℝ) (data : List (ℂ × ℝ)) :
    (abeles pol κ2 k0 (conjLayers ((eps, d) :: data))).map star =
      (charMatrix (pol.admittance (star eps) (layerKz κ2 (star eps))) (layerKz κ2 (star eps) * (d * k0))).map star *
        (abeles pol κ2 k0 (conjLayers data)).map star := by
  simp only [conjLayers, abeles, List.map_cons, List.prod_cons]
  exact (Matrix.map_mul (f := starRingEnd ℂ))

theorem abeles_star_append (pol : Polarisation) (κ2 k0 : ℝ) (xs ys : List (ℂ × ℝ)) :
    (abeles pol κ2 k0 (conjLayers (xs ++ ys))).map star =
      (abeles pol κ2 k0 (conjLayers xs)).map star * (abeles pol κ2 k0 (conjLayers ys)).map star := by
  simp only [conjLayers, abeles, List.map_append, List.prod_append]
  exact (Matrix.map_mul (f := starRingEnd ℂ))

theorem abeles_star_nil (pol : Polarisation) (κ2 k0 : ℝ) : (abeles pol κ2 k0 (conjLayers [])).map star = 1 := by
  ext i j
  fin_cases i <;> fin_cases j <;> simp [conjLayers, abeles]

/-- The equations of one order split into polarisations. -/
theorem uniform_flow {x y ρ eps k0 : ℂ} {κ2 : ℝ} (hxy : x ^ 2 + y ^ 2 = 1) (hk : k0 ≠ 0) (he : eps ≠ 0)
    (hκ : (κ2 : ℂ) * k0 ^ 2 = ρ ^ 2)
    {Ex Ey Hx Hy : ℝ → ℂ}
    (d1 : ∀ z, HasDerivAt Ex (I * mu0c * k0 * Hy z - I * mu0c / k0 * (ρ * x) * (1 / eps * (ρ * x * Hy z - ρ * y * Hx z))) z)
    (d2 : ∀ z, HasDerivAt Ey (-(I * mu0c * k0) * Hx z - I * mu0c / k0 * (ρ * y) * (1 / eps * (ρ * x * Hy z - ρ * y * Hx z))) z)
    (d3 : ∀ z, HasDerivAt Hx (I / mu0c / k0 * (ρ * x) * (ρ * x * Ey z - ρ * y * Ex z) - I / mu0c * k0 * (eps * Ey z)) z)
    (d4 : ∀ z, HasDerivAt Hy (I / mu0c / k0 * (ρ * y) * (ρ * x * Ey z - ρ * y * Ex z) + I / mu0c * k0 * (eps * Ex z)) z)
    (hg : eps ≠ κ2) (pol : Polarisation) (d : ℝ) :
    polPart pol x y (Ex 0) (Ey 0) (Hx 0) (Hy 0) =
      (!![Complex.cos (star (layerKz κ2 (star eps) : ℂ) * (d * k0)),
          -(I * Complex.sin (star (layerKz κ2 (star eps) : ℂ) * (d * k0)) / star (pol.admittance (star eps) (layerKz κ2 (star eps))));
          -(I * star (pol.admittance (star eps) (layerKz κ2 (star eps))) * Complex.sin (star (layerKz κ2 (star eps) : ℂ) * (d * k0))),
          Complex.cos (star (layerKz κ2 (star eps) : ℂ) * (d * k0))] : Matrix (Fin 2) (Fin 2) ℂ) *ᵥ
        polPart pol x y (Ex d) (Ey d) (Hx d) (Hy d) := by
  have hm : (mu0c : ℂ) ≠ 0 := by exact_mod_cast mu0c_pos.ne'
  set q := star (layerKz κ2 (star eps) : ℂ) with hq
  have hq2 : q ^ 2 = eps - κ2 := by
    rw [hq, ← star_pow]
    have : layerKz κ2 (star eps) ^ 2 = star eps - κ2 := csqrt_sq _
    rw [this]
    simp
  have hq0 : q ≠ 0 := fun e => hg (sub_eq_zero.1 (by rw [← hq2, e]; ring))
  cases pol with
  | te =>
    have a1 : ∀ z, HasDerivAt (fun t => y * Ex t - x * Ey t) (I * k0 * 1 * (mu0c * (x * Hx z + y * Hy z))) z := fun z =>
      (((d1 z).const_mul y).sub ((d2 z).const_mul x)).congr_deriv (by ring)
    have a2 : ∀ z, HasDerivAt (fun t => mu0c * (x * Hx t + y * Hy t)) (I * k0 * q ^ 2 * (y * Ex z - x * Ey z)) z := fun z => by
      refine ((((d3 z).const_mul x).add ((d4 z).const_mul y)).const_mul (mu0c : ℂ)).congr_deriv ?_
      rw [hq2]
      have e : I * (ρ ^ 2 / k0) = I * k0 * κ2 := by rw [← hκ]; field_simp
      have e1 : (mu0c : ℂ) * (x * (I / mu0c / k0 * (ρ * x) * (ρ * x * Ey z - ρ * y * Ex z) - I / mu0c * k0 * (eps * Ey z)) +
          y * (I / mu0c / k0 * (ρ * y) * (ρ * x * Ey z - ρ * y * Ex z) + I / mu0c * k0 * (eps * Ex z))) =
          (x ^ 2 + y ^ 2) * (I * (ρ ^ 2 / k0)) * (x * Ey z - y * Ex z) + I * k0 * eps * (y * Ex z - x * Ey z) := by
        field_simp
        ring
      rw [e1, hxy, e]
      ring
    obtain ⟨r1, r2⟩ := scalar_flow hq0 (one_mul _).symm a1 a2 d
    have ha : star (Polarisation.te.admittance (star eps) (layerKz κ2 (star eps))) = q := rfl
    rw [ha]
    have e : q ^ 2 / q = q := by field_simp
    rw [e] at r2
    funext i
    fin_cases i
    · simp [polPart, mulVec, dotProduct, Fin.sum_univ_two]
      rw [r1]; ring
    · simp [polPart, mulVec, dotProduct, Fin.sum_univ_two]
      rw [r2]
      ring
  | tm =>
    have a1 : ∀ z, HasDerivAt (fun t => x * Ex t + y * Ey t) (I * k0 * (q ^ 2 / eps) * (-(mu0c * (y * Hx z - x * Hy z)))) z := fun z => by
      refine (((d1 z).const_mul x).add ((d2 z).const_mul y)).congr_deriv ?_
      rw [hq2]
      have e : I * (ρ ^ 2 / k0) = I * k0 * κ2 := by rw [← hκ]; field_simp
      have e1 : x * (I * mu0c * k0 * Hy z - I * mu0c / k0 * (ρ * x) * (1 / eps * (ρ * x * Hy z - ρ * y * Hx z))) +
          y * (-(I * mu0c * k0) * Hx z - I * mu0c / k0 * (ρ * y) * (1 / eps * (ρ * x * Hy z - ρ * y * Hx z))) =
          I * k0 * (-(mu0c * (y * Hx z - x * Hy z))) +
          (x ^ 2 + y ^ 2) * (I * (ρ ^ 2 / k0)) / eps * (mu0c * (y * Hx z - x * Hy z)) := by
        field_simp
        ring
      rw [e1, hxy, e]
      field_simp
      ring
    have a2 : ∀ z, HasDerivAt (fun t => -(mu0c * (y * Hx t - x * Hy t))) (I * k0 * eps * (x * Ex z + y * Ey z)) z := fun z => by
      refine ((((d3 z).const_mul y).sub ((d4 z).const_mul x)).const_mul (mu0c : ℂ)).neg.congr_deriv ?_
      field_simp
      ring
    obtain ⟨r1, r2⟩ := scalar_flow hq0 (div_mul_cancel₀ _ he).symm a1 a2 d
    have ha : star (Polarisation.tm.admittance (star eps) (layerKz κ2 (star eps))) = eps / q := by
      simp [Polarisation.admittance, hq]
    rw [ha]
    have e : q ^ 2 / eps / q = q / eps := by field_simp
    rw [e] at r1
    funext i
    fin_cases i
    · simp [polPart, mulVec, dotProduct, Fin.sum_univ_two]
      rw [r1]; field_simp; ring
    · simp [polPart, mulVec, dotProduct, Fin.sum_univ_two]
      rw [r2]
      ring

namespace TLattice
variable {pw : ℕ × ℕ} {a1 a2 : R2} {ei ee : PyNum} {l : TLattice} {jv1 : ℝ → ℝ} {wl : ℝ} {a b : ℝ}

theorem inPlane_sq (hw : wl ≠ 0) (kp : ℂ × ℂ) (k : Fin (l.shape.1 * l.shape.2)) :
    ((l.inPlane wl kp k : ℝ) : ℂ) * ((2 * Real.pi / wl : ℝ) : ℂ) ^ 2 = (uNorm (l.wave kp k) : ℂ) ^ 2 := by
  have hk : (2 * Real.pi / wl : ℝ) ≠ 0 := div_ne_zero (by positivity) hw
  have : l.inPlane wl kp k * (2 * Real.pi / wl) ^ 2 = uNorm (l.wave kp k) ^ 2 := by
    rw [inPlane, uNorm, Real.sq_sqrt (by positivity), div_mul_cancel₀ _ (pow_ne_zero 2 hk)]
  exact_mod_cast this

theorem dir_unit (k : Fin (l.shape.1 * l.shape.2)) : (l.dir (↑a, ↑b) k).1 ^ 2 + (l.dir (↑a, ↑b) k).2 ^ 2 = 1 := by
  refine planarDir_unit (a + flatT l.shape l.gx k) (b + flatT l.shape l.gy k) ?_
  simp

/-- A field of a uniform layer, polarisation by polarisation. -/
theorem maxwell_pol (hw : wl ≠ 0) {host : ℂ} (hh : host ≠ 0) {f : ℝ → TIdx l.shape → ℂ}
    (hf : ∀ z i, HasDerivAt (fun t => f t i) ((tsystem (l.wave (↑a, ↑b)) (diagonal fun _ => host)
        (diagonal fun _ => 1 / host) ((2 * Real.pi / wl : ℝ) : ℂ) *ᵥ f z) i) z)
    {k : Fin (l.shape.1 * l.shape.2)}
    (hc : l.wave (↑a, ↑b) k = 0 ∨ 1 / 2 ^ 52 ≤ uNorm (l.wave (↑a, ↑b) k) ^ 2)
    (hg : host ≠ l.inPlane wl (↑a, ↑b) k) (pol : Polarisation) (d : ℝ) :
    l.polAt (↑a, ↑b) pol k (f 0) =
      (abeles pol (l.inPlane wl (↑a, ↑b) k) (2 * Real.pi / wl) (conjLayers [(host, d)])).map star *ᵥ
        l.polAt (↑a, ↑b) pol k (f d) := by
  have hk : (2 * Real.pi / wl : ℝ) ≠ 0 := div_ne_zero (by positivity) hw
  have hk' : ((2 * Real.pi / wl : ℝ) : ℂ) ≠ 0 := by exact_mod_cast hk
  have hwv := wave_eq hc
  have key := uniform_flow (x := (l.dir (↑a, ↑b) k).1) (y := (l.dir (↑a, ↑b) k).2) (ρ := uNorm (l.wave (↑a, ↑b) k))
    (eps := host) (k0 := ((2 * Real.pi / wl : ℝ) : ℂ)) (κ2 := l.inPlane wl (↑a, ↑b) k) (dir_unit k) hk' hh (inPlane_sq hw _ k)
    (Ex := fun z => f z (.inl (.inl k))) (Ey := fun z => f z (.inl (.inr k))) (Hx := fun z => f z (.inr (.inl k)))
    (Hy := fun z => f z (.inr (.inr k))) ?_ ?_ ?_ ?_ hg pol d
  · rw [abeles_star_cons, abeles_star_nil, Matrix.mul_one, charMatrix_star]
    have e : star (layerKz (l.inPlane wl (↑a, ↑b) k) (star host) * ((d : ℂ) * ((2 * Real.pi / wl : ℝ) : ℂ))) =
        star (layerKz (l.inPlane wl (↑a, ↑b) k) (star host)) * ((d : ℂ) * ((2 * Real.pi / wl : ℝ) : ℂ)) := by
      simp [mul_comm, mul_assoc]
    rw [e]
    exact key
  all_goals
    intro z
    obtain ⟨t1, t2, t3, t4⟩ := tsystem_mulVec (l.wave (↑a, ↑b)) (diagonal fun _ => host) (diagonal fun _ => 1 / host)
      ((2 * Real.pi / wl : ℝ) : ℂ) (f z) k
    simp only [mulVec_diagonal] at t1 t2 t3 t4
    have w1 := congrArg Prod.fst hwv
    have w2 := congrArg Prod.snd hwv
    simp only at w1 w2
    rw [← w1, ← w2]
  · exact (hf z (.inl (.inl k))).congr_deriv t1
  · exact (hf z (.inl (.inr k))).congr_deriv t2
  · exact (hf z (.inr (.inl k))).congr_deriv t3
  · exact (hf z (.inr (.inr k))).congr_deriv t4

/-- A cascade, polarisation by polarisation. -/
theorem cascade_pol (h : TLattice.make pw a1 a2 ei ee = .ok l) (hs : l.shape = pw) {data : List (ℂ × ℝ)}
    {S V : Matrix (TIdx l.shape) (TIdx l.shape) ℂ} (hS : TCascade jv1 l wl (↑a, ↑b) data S)
    (hV : l.V l.epsI wl (↑a, ↑b) = .ok V) {k : Fin (l.shape.1 * l.shape.2)}
    (hc : l.wave (↑a, ↑b) k = 0 ∨ 1 / 2 ^ 52 ≤ uNorm (l.wave (↑a, ↑b) k) ^ 2)
    (hg : ∀ x ∈ data, x.1 ≠ l.inPlane wl (↑a, ↑b) k) (pol : Polarisation) {u v : TIdx l.shape → ℂ} (huv : TScatters S u v) :
    l.polAt (↑a, ↑b) pol k (V *ᵥ u) =
      (abeles pol (l.inPlane wl (↑a, ↑b) k) (2 * Real.pi / wl) (conjLayers data)).map star *ᵥ
        l.polAt (↑a, ↑b) pol k (V *ᵥ v) := by
  induction hS generalizing u v with
  | layer hu hS =>
    obtain ⟨f, hf, f0, fd⟩ := (layer_relates h hs hS hV u v).1 huv
    obtain ⟨-, -, -, -, hw, hh, -, -⟩ := layer_S h hs hS
    rw [coupling_uniform id hu, coupling_uniform (1 / ·) hu] at hf
    rw [← f0, ← fd]
    exact maxwell_pol hw hh hf hc (hg _ List.mem_cons_self) pol _
  | join _ _ hm ih1 ih2 =>
    obtain ⟨w, h1, h2⟩ := (multS_chain hm u v).1 huv
    rw [abeles_star_append, ← mulVec_mulVec, ih1 (fun x hx => hg x (List.mem_append_left _ hx)) h1,
      ih2 (fun x hx => hg x (List.mem_append_right _ hx)) h2]

/-- A stack on the emergence medium. -/
theorem stack_pol (h : TLattice.make pw a1 a2 ei ee = .ok l) (hs : l.shape = pw) {data : List (ℂ × ℝ)}
    {S Vi Ve : Matrix (TIdx l.shape) (TIdx l.shape) ℂ} (hS : TStack jv1 l wl (↑a, ↑b) data S)
    (hVi : l.V l.epsI wl (↑a, ↑b) = .ok Vi) (hVe : l.V l.epsE wl (↑a, ↑b) = .ok Ve) {k : Fin (l.shape.1 * l.shape.2)}
    (hc : l.wave (↑a, ↑b) k = 0 ∨ 1 / 2 ^ 52 ≤ uNorm (l.wave (↑a, ↑b) k) ^ 2)
    (hg : ∀ x ∈ data, x.1 ≠ l.inPlane wl (↑a, ↑b) k) (pol : Polarisation) {u v : TIdx l.shape → ℂ} (huv : TScatters S u v) :
    l.polAt (↑a, ↑b) pol k (Vi *ᵥ u) =
      (abeles pol (l.inPlane wl (↑a, ↑b) k) (2 * Real.pi / wl) (conjLayers data)).map star *ᵥ
        l.polAt (↑a, ↑b) pol k (Ve *ᵥ v) := by
  cases hS with
  | bare hS => rw [abeles_star_nil, one_mulVec, (interface_relates hS hVi hVe u v).1 huv]
  | layers hA hB hm =>
    obtain ⟨w, h1, h2⟩ := (multS_chain hm u v).1 huv
    rw [cascade_pol h hs hA hVi hc hg pol h1, (interface_relates hB hVi hVe w v).1 h2]

/-- What the amplitudes of an order are, polarisation by polarisation. -/
theorem polAt_V {eps : PyNum} {V : Matrix (TIdx l.shape) (TIdx l.shape) ℂ} (hV : l.V eps wl (↑a, ↑b) = .ok V)
    (u : TIdx l.shape → ℂ) (k : Fin (l.shape.1 * l.shape.2)) :
    l.polAt (↑a, ↑b) .te k (V *ᵥ u) = ![u (.inl (.inl k)) + u (.inr (.inl k)),
      flatT l.shape (l.kz eps wl (↑a, ↑b)) k / ((2 * Real.pi / wl : ℝ) : ℂ) * (u (.inl (.inl k)) - u (.inr (.inl k)))] ∧
    l.polAt (↑a, ↑b) .tm k (V *ᵥ u) = ![l.cosz eps wl (↑a, ↑b) k * (u (.inr (.inr k)) - u (.inl (.inr k))),
      -(csqrt eps.val * (u (.inl (.inr k)) + u (.inr (.inr k))))] := by
  obtain ⟨hw, h0, rfl⟩ := V_ok hV
  have hm : (mu0c : ℂ) ≠ 0 := by exact_mod_cast mu0c_pos.ne'
  have hwl : (wl : ℂ) ≠ 0 := by exact_mod_cast hw
  have hpi : (Real.pi : ℂ) ≠ 0 := by exact_mod_cast Real.pi_ne_zero
  have hd := dir_unit (l := l) (a := a) (b := b) k
  have e : u = Sum.elim (Sum.elim (fun k => u (.inl (.inl k))) (fun k => u (.inl (.inr k))))
      (Sum.elim (fun k => u (.inr (.inl k))) (fun k => u (.inr (.inr k)))) := by
    funext i; rcases i with (i | i) | (i | i) <;> rfl
  have hcz : csqrt eps.val * l.cosz eps wl (↑a, ↑b) k = flatT l.shape (l.kz eps wl (↑a, ↑b)) k / ((2 * Real.pi / wl : ℝ) : ℂ) := by
    rw [cosz]; push_cast; field_simp
  rw [← hcz]
  generalize csqrt eps.val = n at *
  have ex : ∀ f : TIdx l.shape → ℂ, f = diagBlocks (fun k => vBlock (l.dir (↑a, ↑b) k).1 (l.dir (↑a, ↑b) k).2 (l.cosz eps wl (↑a, ↑b) k) (n / mu0c)) *ᵥ u →
      f (.inl (.inl k)) = (l.dir (↑a, ↑b) k).2 * (u (.inl (.inl k)) + u (.inr (.inl k))) +
        l.cosz eps wl (↑a, ↑b) k * (l.dir (↑a, ↑b) k).1 * (u (.inr (.inr k)) - u (.inl (.inr k))) ∧
      f (.inl (.inr k)) = -(l.dir (↑a, ↑b) k).1 * (u (.inl (.inl k)) + u (.inr (.inl k))) +
        l.cosz eps wl (↑a, ↑b) k * (l.dir (↑a, ↑b) k).2 * (u (.inr (.inr k)) - u (.inl (.inr k))) ∧
      f (.inr (.inl k)) = n / mu0c * (l.cosz eps wl (↑a, ↑b) k * (l.dir (↑a, ↑b) k).1 * (u (.inl (.inl k)) - u (.inr (.inl k))) +
        (l.dir (↑a, ↑b) k).2 * (u (.inl (.inr k)) + u (.inr (.inr k)))) ∧
      f (.inr (.inr k)) = n / mu0c * (l.cosz eps wl (↑a, ↑b) k * (l.dir (↑a, ↑b) k).2 * (u (.inl (.inl k)) - u (.inr (.inl k))) -
        (l.dir (↑a, ↑b) k).1 * (u (.inl (.inr k)) + u (.inr (.inr k)))) := by
    rintro f rfl
    rw [e]
    simp only [diagBlocks, fromBlocks_mulVec, Sum.elim_comp_inl, Sum.elim_comp_inr, Sum.elim_inl, Sum.elim_inr, Pi.add_apply,
      mulVec_diagonal, vBlock]
    simp
    refine ⟨by ring, by ring, by ring, by ring⟩
  obtain ⟨f1, f2, f3, f4⟩ := ex _ rfl
  simp only [polAt, polPart, f1, f2, f3, f4]
  generalize (l.dir (↑a, ↑b) k).1 = x at *
  generalize (l.dir (↑a, ↑b) k).2 = y at *
  constructor
  · funext i
    fin_cases i
    · simp
      linear_combination (u (.inl (.inl k)) + u (.inr (.inl k))) * hd
    · simp
      field_simp
      linear_combination (l.cosz eps wl (↑a, ↑b) k * (u (.inl (.inl k)) - u (.inr (.inl k)))) * hd
  · funext i
    fin_cases i
    · simp
      linear_combination (l.cosz eps wl (↑a, ↑b) k * (u (.inr (.inr k)) - u (.inl (.inr k)))) * hd
    · simp
      field_simp
      linear_combination (u (.inl (.inr k)) + u (.inr (.inr k))) * hd

/-- Normal wave numbers of real media. -/
theorem kz_outer {eps : PyNum} {r : ℝ} (he : eps.val = r) (hw : 0 < wl) (k : Fin (l.shape.1 * l.shape.2)) :
    flatT l.shape (l.kz eps wl (↑a, ↑b)) k / ((2 * Real.pi / wl : ℝ) : ℂ) = star (outerKz (r - l.inPlane wl (↑a, ↑b) k)) := by
  have hpi := Real.pi_pos
  set κ : ℝ := 2 * Real.pi / wl with hκ
  have hκ0 : 0 < κ := by positivity
  have hκc : (κ : ℂ) ≠ 0 := by exact_mod_cast hκ0.ne'
  have hx := kz_axes (l := l) (wl := wl) (a := a) (b := b) he k
  have hz2 : flatT l.shape (l.kz eps wl (↑a, ↑b)) k ^ 2 = eps.val * (κ : ℂ) ^ 2 - (uNorm (l.wave (↑a, ↑b) k) : ℂ) ^ 2 := by
    rw [hκ]
    exact computeKz_sq (l.gx (k % l.shape.1) (k / l.shape.1)) (l.gy (k % l.shape.1) (k / l.shape.1)) eps.val wl (↑a, ↑b)
  rw [he, ← inPlane_sq hw.ne' _ k, ← hκ] at hz2
  simp only at hx
  generalize flatT l.shape (l.kz eps wl (↑a, ↑b)) k = z at *
  set s := r - l.inPlane wl (↑a, ↑b) k with hs
  have hw2 : (z / κ) ^ 2 = (s : ℂ) := by
    rw [div_pow, hz2, hs]; push_cast; field_simp
  have hre : (z / κ).re = z.re / κ := by rw [Complex.div_ofReal_re]
  have him : (z / κ).im = z.im / κ := by rw [Complex.div_ofReal_im]
  have p1 : 0 ≤ (z / κ).re := by rw [hre]; exact div_nonneg hx.1 hκ0.le
  have p2 : 0 ≤ (z / κ).im := by rw [him]; exact div_nonneg hx.2.1 hκ0.le
  have p3 : (z / κ).re * (z / κ).im = 0 := by
    rw [hre, him]
    have := hx.2.2
    field_simp
    linarith
  have e1 := congrArg Complex.re hw2
  rw [pow_two, Complex.mul_re, ofReal_re] at e1
  generalize z / κ = w at *
  unfold outerKz
  split_ifs with hs0
  · have h0 : w.im = 0 := by
      rcases mul_eq_zero.1 p3 with h | h
      · rw [h] at e1; nlinarith
      · exact h
    have : Real.sqrt s = w.re := by
      rw [← e1, h0]; simp [Real.sqrt_mul_self p1]
    rw [this]
    refine Complex.ext ?_ ?_
    · simp
    · simp [h0]
  · have h0 : w.re = 0 := by
      rcases mul_eq_zero.1 p3 with h | h
      · exact h
      · rw [h] at e1; nlinarith
    have : Real.sqrt (-s) = w.im := by
      rw [← e1, h0]; simp [Real.sqrt_mul_self p2]
    rw [this]
    refine Complex.ext ?_ ?_
    · simp [h0]
    · simp

/-- The cosines in real media. -/
theorem cosz_outer {eps : PyNum} {r : ℝ} (he : eps.val = r) (hr : 0 < r) (hw : 0 < wl) (k : Fin (l.shape.1 * l.shape.2)) :
    l.cosz eps wl (↑a, ↑b) k = star (outerKz (r - l.inPlane wl (↑a, ↑b) k)) / (Real.sqrt r : ℝ) := by
  rw [← kz_outer he hw, cosz, he, csqrt_pos hr, div_div]
  congr 1
  push_cast
  ring

end TLattice

end Khepri
