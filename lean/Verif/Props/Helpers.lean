import Verif.Model.Helpers
import Verif.Spec.Units
import Verif.Props.Tmat
import Verif.Lemmas.EzSpectrum
import Mathlib.Analysis.Real.Pi.Bounds

/-!
# C82: lattice accessors and unit conversions
-/

namespace Khepri

section C82
variable {pw : ℕ × ℕ} {a1 a2 : R2} {ei ee : PyNum} {l : TLattice}

/-- **C82.** For a square grid `g_vectors()` gives every order once, in C order: number `k` is `m b1 + n b2` with
`m = k // n_orders - n_orders // 2` and `n = k % n_orders - n_orders // 2`. -/
theorem C82_vectors (h : TLattice.make pw a1 a2 ei ee = .ok l) (hp : pw.1 = pw.2) (h0 : 0 < pw.1) :
    l.gVectors.length = pw.1 * pw.2 ∧ ∀ k, k < pw.1 * pw.2 → ∀ m n : ℤ, m = (k / pw.1 : ℕ) - (pw.1 / 2 : ℕ) →
      n = (k % pw.1 : ℕ) - (pw.1 / 2 : ℕ) →
      l.gVectors[k]? = some (m * l.b.1.1 + n * l.b.2.1, m * l.b.1.2 + n * l.b.2.2) := by
  have hs : l.shape = pw := (TLattice.make_shape_iff h h0).2 (Or.inl hp)
  constructor
  · simp [TLattice.gVectors, hs]
  · rintro k hk m n rfl rfl
    rw [TLattice.gVectors, hs, List.getElem?_map, List.getElem?_range hk, Option.map_some]
    simp only [(TLattice.make_gx h _ _).1, (TLattice.make_gx h _ _).2, Option.some.injEq, Prod.mk.injEq, ← hp]
    generalize k / pw.1 = x, k % pw.1 = y, pw.1 / 2 = z
    push_cast
    constructor <;> ring

/-- **C82.** `G_vectors()` gives, in C order and once each, the vectors `m b1 + n b2` of a grid of `2 pw` (even) or
`2 pw - 1` (odd) numbers `m` and `n` centred on zero. -/
theorem C82_grid (h : TLattice.make pw a1 a2 ei ee = .ok l) {q : ℕ × ℕ} (h1 : q.1 = 2 * pw.1 - pw.1 % 2)
    (h2 : q.2 = 2 * pw.2 - pw.2 % 2) :
    l.GVectors.length = q.1 * q.2 ∧ ∀ k, k < q.1 * q.2 → ∀ m n : ℤ, m = (k / q.2 : ℕ) - (q.1 / 2 : ℕ) →
      n = (k % q.2 : ℕ) - (q.2 / 2 : ℕ) →
      l.GVectors[k]? = some (m * l.b.1.1 + n * l.b.2.1, m * l.b.1.2 + n * l.b.2.2) := by
  obtain ⟨-, b, hb, rfl⟩ := TLattice.make_eq_ok h
  have e1 : 4 * (pw.1 / 2) + pw.1 % 2 = q.1 := by omega
  have e2 : 4 * (pw.2 / 2) + pw.2 % 2 = q.2 := by omega
  have c1 : 2 * (pw.1 / 2) = q.1 / 2 := by omega
  have c2 : 2 * (pw.2 / 2) = q.2 / 2 := by omega
  constructor
  · simp [TLattice.GVectors, e1, e2]
  · rintro k hk m n rfl rfl
    simp only [TLattice.GVectors, e1, e2, c1, c2]
    rw [List.getElem?_map, List.getElem?_range hk, Option.map_some, Option.some.injEq, Prod.mk.injEq]
    generalize k / q.2 = x, k % q.2 = y, q.1 / 2 = z, q.2 / 2 = w
    push_cast
    constructor <;> ring

/-- **C82.** The differences of any two orders of a square grid are among them. -/
theorem C82_differences (h : TLattice.make pw a1 a2 ei ee = .ok l) (hp : pw.1 = pw.2) {g g' : R2} (hg : g ∈ l.gVectors)
    (hg' : g' ∈ l.gVectors) : (g.1 - g'.1, g.2 - g'.2) ∈ l.GVectors := by
  have h0 : 0 < pw.1 := by
    rcases Nat.eq_zero_or_pos pw.1 with h0 | h0
    · exfalso
      obtain ⟨-, b, hb, rfl⟩ := TLattice.make_eq_ok h
      simp [TLattice.gVectors, TLattice.shape, h0, pySliceLen, TLattice.nx] at hg
    · exact h0
  obtain ⟨hl, hv⟩ := C82_vectors h hp h0
  obtain ⟨k, hk⟩ := List.mem_iff_getElem?.1 hg
  obtain ⟨k', hk'⟩ := List.mem_iff_getElem?.1 hg'
  have lk : k < pw.1 * pw.2 := by rw [← hl]; exact (List.getElem?_eq_some_iff.1 hk).1
  have lk' : k' < pw.1 * pw.2 := by rw [← hl]; exact (List.getElem?_eq_some_iff.1 hk').1
  rw [hv k lk _ _ rfl rfl, Option.some.injEq] at hk
  rw [hv k' lk' _ _ rfl rfl, Option.some.injEq] at hk'
  obtain ⟨gl, gv⟩ := C82_grid h (q := (2 * pw.1 - pw.1 % 2, 2 * pw.2 - pw.2 % 2)) rfl rfl
  have b1 : k / pw.1 < pw.1 := Nat.div_lt_of_lt_mul (by rw [← hp] at lk; exact lk)
  have b1' : k' / pw.1 < pw.1 := Nat.div_lt_of_lt_mul (by rw [← hp] at lk'; exact lk')
  have b2 : k % pw.1 < pw.1 := Nat.mod_lt _ h0
  have b2' : k' % pw.1 < pw.1 := Nat.mod_lt _ h0
  rw [← hk, ← hk']
  rw [← hp] at gl gv
  generalize k / pw.1 = x, k % pw.1 = y, k' / pw.1 = x', k' % pw.1 = y' at *
  obtain ⟨Q, hQ⟩ : ∃ Q, Q = 2 * pw.1 - pw.1 % 2 := ⟨_, rfl⟩
  rw [← hQ] at gl gv
  simp only at gl gv
  have hX : x + Q / 2 - x' < Q := by omega
  have hY : y + Q / 2 - y' < Q := by omega
  have hlt : (x + Q / 2 - x') * Q + (y + Q / 2 - y') < Q * Q := by
    calc _ < (x + Q / 2 - x') * Q + Q := by omega
      _ = (x + Q / 2 - x' + 1) * Q := by ring
      _ ≤ Q * Q := Nat.mul_le_mul_right _ hX
  have hd : ((x + Q / 2 - x') * Q + (y + Q / 2 - y')) / Q = x + Q / 2 - x' := by
    rw [mul_comm, Nat.mul_add_div (by omega), Nat.div_eq_of_lt hY, add_zero]
  have hm : ((x + Q / 2 - x') * Q + (y + Q / 2 - y')) % Q = y + Q / 2 - y' := by
    rw [mul_comm, Nat.mul_add_mod, Nat.mod_eq_of_lt hY]
  have := gv _ hlt ((x : ℤ) - x') ((y : ℤ) - y') (by rw [hd]; omega) (by rw [hm]; omega)
  refine List.mem_iff_getElem?.2 ⟨_, this.trans ?_⟩
  rw [Option.some.injEq, Prod.mk.injEq]
  push_cast
  constructor <;> ring

/-- **C82.** `kp_angle(wavelength, theta, phi)` is the in-plane wave vector, in the incidence medium, of a plane wave at
`theta` degrees from the axis in the plane at `phi` degrees from x. -/
theorem C82_angle {e e' wl theta phi : ℝ} (he : 0 < e) (hw : wl ≠ 0)
    (h : TLattice.make pw a1 a2 (.float e) (.float e') = .ok l) :
    l.kpAngle wl theta phi = .ok
      (((Real.sqrt e * (2 * Real.pi / wl) * Real.sin (theta * (Real.pi / 180)) * Real.cos (phi * (Real.pi / 180)) : ℝ) : ℂ),
       ((Real.sqrt e * (2 * Real.pi / wl) * Real.sin (theta * (Real.pi / 180)) * Real.sin (phi * (Real.pi / 180)) : ℝ) : ℂ)) := by
  obtain ⟨-, b, hb, rfl⟩ := TLattice.make_eq_ok h
  have : ∃ kp, computeKplanar (e : ℂ) wl theta phi = .ok kp := by
    simp [computeKplanar, hw, pure, Except.pure]
  obtain ⟨kp, hk⟩ := this
  rw [← kplanar_real he hk]
  exact hk

/-- **C82.** The mask tells which of these are shorter than the radius. -/
theorem C82_mask (radius : ℝ) (k : ℕ) (g : R2) (hg : l.gVectors[k]? = some g) :
    (l.restrictRadiusMask radius)[k]? = some true ↔ Real.sqrt (g.1 ^ 2 + g.2 ^ 2) < radius := by
  simp [TLattice.restrictRadiusMask, List.getElem?_map, hg]

/-- **C82, counterexample.** The mask does not apply to vectors of amplitudes, which are in Fortran order: on a
1 × 2 lattice with 3 × 3 orders, amplitude 1 belongs to an order of length `pi < 4` and entry 1 of the mask for radius 4 is
false. -/
theorem C82_mask_counterexample (ei ee : PyNum) :
    ∃ l, TLattice.make (3, 3) (1, 0) (0, 2) ei ee = .ok l ∧ l.shape = (3, 3) ∧
      Real.sqrt (flatT (3, 3) l.gx 1 ^ 2 + flatT (3, 3) l.gy 1 ^ 2) < 4 ∧
      (l.restrictRadiusMask 4)[1]? = some false := by
  have hr : reciproc (1, 0) (0, 2) = .ok ((2 * Real.pi, 0), (0, Real.pi)) := by
    rw [reciproc_eq_ok]
    norm_num
  have h := TLattice.make_eq (pw := (3, 3)) ei ee hr rfl
  refine ⟨_, h, (TLattice.make_shape_iff h (by norm_num)).2 (Or.inl rfl), ?_, ?_⟩
  · have e := TLattice.make_gx h 1 0
    have e1 : flatT (3, 3) (TLattice.gx _) (1 : Fin 9) = 0 := e.1.trans (by norm_num)
    have e2 : flatT (3, 3) (TLattice.gy _) (1 : Fin 9) = -Real.pi := e.2.trans (by norm_num)
    refine lt_of_eq_of_lt (b := Real.pi) ?_ Real.pi_lt_four
    refine (congrArg Real.sqrt (congrArg₂ (fun x y => x ^ 2 + y ^ 2) e1 e2)).trans ?_
    rw [zero_pow two_ne_zero, zero_add, neg_sq, Real.sqrt_sq Real.pi_pos.le]
  · obtain ⟨-, hv⟩ := C82_vectors h rfl (by norm_num)
    have hg := hv 1 (by norm_num) (-1) 0 (by norm_num) (by norm_num)
    have hlt : ¬ Real.sqrt ((2 * Real.pi) ^ 2) < 4 := by
      rw [Real.sqrt_sq (by positivity)]
      linarith [Real.pi_gt_three]
    rw [TLattice.restrictRadiusMask, List.getElem?_map, hg, Option.map_some]
    simpa using hlt

/-- **C82.** What is assigned to `gx` (an array of its shape) is what `gx` reads, and nothing else changes. -/
theorem C82_set_gx (v : ℕ → ℕ → ℝ) :
    (l.setGx v).shape = l.shape ∧ (∀ i j, i < l.shape.1 → j < l.shape.2 → (l.setGx v).gx i j = v i j) ∧
    (l.setGx v).gy = l.gy ∧ ∀ i j, (i < l.nx ∨ l.nx + l.shape.1 ≤ i ∨ j < l.ny ∨ l.ny + l.shape.2 ≤ j) →
      (l.setGx v).Gx i j = l.Gx i j := by
  refine ⟨rfl, fun i j hi hj => ?_, rfl, fun i j h => ?_⟩
  · show (if l.InView (l.nx + i) (l.ny + j) then v (l.nx + i - l.nx) (l.ny + j - l.ny) else _) = _
    rw [if_pos (by unfold TLattice.InView; omega)]
    congr 1 <;> omega
  · show (if l.InView i j then _ else _) = _
    rw [if_neg (by unfold TLattice.InView; omega)]

/-- **C82.** The same for `gy`. -/
theorem C82_set_gy (v : ℕ → ℕ → ℝ) :
    (l.setGy v).shape = l.shape ∧ (∀ i j, i < l.shape.1 → j < l.shape.2 → (l.setGy v).gy i j = v i j) ∧
    (l.setGy v).gx = l.gx ∧ ∀ i j, (i < l.nx ∨ l.nx + l.shape.1 ≤ i ∨ j < l.ny ∨ l.ny + l.shape.2 ≤ j) →
      (l.setGy v).Gy i j = l.Gy i j := by
  refine ⟨rfl, fun i j hi hj => ?_, rfl, fun i j h => ?_⟩
  · show (if l.InView (l.nx + i) (l.ny + j) then v (l.nx + i - l.nx) (l.ny + j - l.ny) else _) = _
    rw [if_pos (by unfold TLattice.InView; omega)]
    congr 1 <;> omega
  · show (if l.InView i j then _ else _) = _
    rw [if_neg (by unfold TLattice.InView; omega)]

/-- **C82.** `eta_normal` is `eta` at the null Bloch vector, and reading it again gives the same.  (Partial: not after
the wave vectors are replaced.) -/
theorem C82_eta_partial (l : TLattice) :
    (CachedLattice.etaNormal ⟨l, none⟩).1 = l.eta (0, 0) ∧
    (CachedLattice.etaNormal (CachedLattice.etaNormal ⟨l, none⟩).2).1 = l.eta (0, 0) := ⟨rfl, rfl⟩

/-- **C82, counterexample.** After `lattice.gx = v`, `eta_normal` still is that of the former wave vectors if it was read
before. -/
theorem C82_eta_counterexample (ei ee : PyNum) :
    ∃ (l : TLattice) (v : ℕ → ℕ → ℝ), TLattice.make (1, 1) (1, 0) (0, 1) ei ee = .ok l ∧
      (CachedLattice.etaNormal { (CachedLattice.etaNormal ⟨l, none⟩).2 with lattice := l.setGx v }).1 0 0
        ≠ (l.setGx v).eta (0, 0) 0 0 := by
  obtain ⟨l, h, hb⟩ := unit_tlattice (1, 1) rfl ei ee
  have hs : l.shape = (1, 1) := (TLattice.make_shape_iff h (by norm_num)).2 (Or.inl rfl)
  refine ⟨l, fun _ _ => -1, h, ?_⟩
  have hg := TLattice.make_gx h 0 0
  have h1 := (C82_set_gx (l := l) (fun _ _ => -1)).2.1 0 0 (by rw [hs]; norm_num) (by rw [hs]; norm_num)
  have h2 := congrFun (congrFun (C82_set_gx (l := l) (fun _ _ => -1)).2.2.1 0) 0
  show computeEta (l.gx 0 0) (l.gy 0 0) (0, 0) ≠ computeEta ((l.setGx fun _ _ => -1).gx 0 0) ((l.setGx fun _ _ => -1).gy 0 0) (0, 0)
  rw [h1, h2, hg.1, hg.2]
  simp only [computeEta, planarDir, uNorm]
  norm_num

end C82

/-- **C82.** The conversions between normalised frequencies and energies are inverse of one another. -/
theorem C82_units {pitch : ℝ} (hp : pitch ≠ 0) (f e : ℝ) :
    (fn2ev f pitch).map (fun e => ev2fn e pitch) = .ok f ∧ fn2ev (ev2fn e pitch) pitch = .ok e := by
  unfold fn2ev ev2fn
  rw [pyCheck_ok hp, ok_bind, ok_bind]
  constructor
  · show Except.ok _ = _
    congr 1
    field_simp
  · show Except.ok _ = _
    congr 1
    field_simp

/-- **C82.** `fn2ev` of a normalised frequency (pitch over wavelength) and a pitch in micrometres is the energy of a photon of
that wavelength in electronvolts, up to the digits of its constants: one part in eight thousand. -/
theorem C82_energy {f pitch : ℝ} (hf : 0 < f) (hp : 0 < pitch) {wl : ℝ} (hw : wl = pitch * 1e-6 / f) :
    ∃ e, fn2ev f pitch = .ok e ∧ |e - photonEnergy wl| ≤ photonEnergy wl / 8000 := by
  unfold fn2ev
  rw [pyCheck_ok hp.ne']
  refine ⟨_, rfl, ?_⟩
  have e1 : photonEnergy wl = planck * lightSpeed / 1e-6 / elementaryCharge * (f / pitch) := by
    rw [photonEnergy, hw]
    field_simp
  have e2 : 66261 / 10 ^ 38 * f * 299792458 / (pitch * (1 / 10 ^ 6)) / (1602 / 10 ^ 22) =
      66261 / 10 ^ 38 * 299792458 / (1 / 10 ^ 6) / (1602 / 10 ^ 22) * (f / pitch) := by
    field_simp
  have hq : 0 < f / pitch := div_pos hf hp
  rw [e1, e2]
  generalize f / pitch = q at hq
  rw [← sub_mul, abs_mul, abs_of_pos hq, mul_div_right_comm _ q 8000]
  refine mul_le_mul_of_nonneg_right ?_ hq.le
  rw [abs_le]
  unfold planck lightSpeed elementaryCharge
  constructor <;> norm_num

example : ∃ e, fn2ev (1 / 2) 1 = .ok e ∧ |e - photonEnergy (1 * 1e-6 / (1 / 2))| ≤ photonEnergy (1 * 1e-6 / (1 / 2)) / 8000 :=
  C82_energy (by norm_num) one_pos rfl

end Khepri
