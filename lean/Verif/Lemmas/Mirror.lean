import Verif.Lemmas.EmbedDevice
import Verif.Lemmas.SymmetryForms

set_option linter.unusedSectionVars false

/-!
Fourier coefficients of flipped pixmaps and of gratings; turned lattices.
-/

namespace Khepri

open Complex Matrix

/-! ### Gratings -/

theorem fourierCoef_lines {a : Arr2} {g : ℕ → ℂ} (h : ∀ x y, a.val x y = g x) (m n : ℤ) :
    fourierCoef a m n = (∑ x : Fin a.nx, g x * wave a.nx m x) * (∑ y : Fin a.ny, wave a.ny n y) / (a.nx * a.ny) := by
  rw [fourierCoef_eq, Finset.sum_mul]
  congr 1
  refine Finset.sum_congr rfl fun x _ => ?_
  rw [Finset.mul_sum]
  refine Finset.sum_congr rfl fun y _ => ?_
  rw [h]
  ring

theorem fourierCoef_lines_zero {a : Arr2} {g : ℕ → ℂ} (h : ∀ x y, a.val x y = g x) (hy : 1 ≤ a.ny) (m : ℤ) :
    fourierCoef a m 0 = (∑ x : Fin a.nx, g x * wave a.nx m x) / a.nx := by
  rw [fourierCoef_lines h]
  have : (a.ny : ℂ) ≠ 0 := by
    have : a.ny ≠ 0 := by omega
    exact_mod_cast this
  simp only [wave_zero, Finset.sum_const, Finset.card_univ, Fintype.card_fin, nsmul_eq_mul, mul_one]
  rw [mul_div_mul_right _ _ this]

theorem fourierCoef_lines_ne {a : Arr2} {g : ℕ → ℂ} (h : ∀ x y, a.val x y = g x) (m : ℤ) {n : ℤ} (hn : n ≠ 0)
    (hb : |n| < a.ny) : fourierCoef a m n = 0 := by
  rw [fourierCoef_lines h, sum_wave, mul_zero, zero_div]
  · intro h0
    rw [h0] at hb
    have := abs_nonneg n
    omega
  · intro hd
    have := Int.le_of_dvd (abs_pos.2 hn) ((dvd_abs _ _).2 hd)
    omega

/-! ### Flips -/

/-- The phase of a flip. -/
noncomputable def flipPhase (p : Bool) (K : ℕ) (m : ℤ) : ℂ := if p then exp (2 * Real.pi * I * (m / K)) else 1

theorem flipPhase_norm (p : Bool) (K : ℕ) (m : ℤ) : ‖flipPhase p K m‖ = 1 := by
  unfold flipPhase
  split
  · rw [show 2 * Real.pi * I * ((m : ℂ) / K) = ((2 * Real.pi * (m / K) : ℝ) : ℂ) * I by push_cast; ring,
      norm_exp_ofReal_mul_I]
  · exact norm_one

/-- The order seen along a flipped axis. -/
def flipInt (p : Bool) (m : ℤ) : ℤ := if p then -m else m

theorem sum_flip (p : Bool) {n : ℕ} (m : ℤ) (g : Fin n → ℂ) :
    ∑ x : Fin n, g (flipAt p x) * wave n m x = flipPhase p n m * ∑ x : Fin n, g x * wave n (flipInt p m) x := by
  cases p with
  | false => simp [flipAt, flipPhase, flipInt]
  | true =>
    simp only [flipAt, flipPhase, flipInt, if_true]
    rw [← Equiv.sum_comp Fin.revPerm, Finset.mul_sum]
    refine Finset.sum_congr rfl fun x _ => ?_
    simp only [Fin.revPerm_apply, Fin.rev_rev]
    have hn : (n : ℂ) ≠ 0 := by
      have := x.2
      have : n ≠ 0 := by omega
      exact_mod_cast this
    have hv : (((Fin.rev x : Fin n) : ℕ) : ℂ) = n - 1 - (x : ℕ) := by
      have hx := x.2
      rw [Fin.val_rev, Nat.cast_sub (by omega)]
      push_cast
      ring
    rw [mul_left_comm]
    congr 1
    rw [wave, wave, hv, ← exp_add]
    have : -(2 * Real.pi * I * (m * (n - 1 - (x : ℕ)) / n)) =
        2 * Real.pi * I * (m / n) + -(2 * Real.pi * I * (((-m : ℤ) : ℂ) * (x : ℕ) / n)) +
          ((-m : ℤ) : ℂ) * (2 * Real.pi * I) := by
      push_cast
      field_simp
      ring
    rw [this, exp_add, exp_int_mul_two_pi_mul_I, mul_one]

theorem fourierCoef_flip (a : Arr2) (p q : Bool) (m n : ℤ) :
    fourierCoef (a.flip p q) m n =
      flipPhase p a.nx m * flipPhase q a.ny n * fourierCoef a (flipInt p m) (flipInt q n) := by
  rw [fourierCoef_eq, fourierCoef_eq, mul_div_assoc']
  obtain ⟨nx, ny, val⟩ := a
  show (∑ x : Fin nx, ∑ y : Fin ny, val (flipAt p x) (flipAt q y) * (wave nx m x * wave ny n y)) / ((nx : ℂ) * ny) = _
  congr 1
  simp only
  have h1 : ∀ x : Fin nx, ∑ y : Fin ny, val (flipAt p x) (flipAt q y) * (wave nx m x * wave ny n y) =
      (flipPhase q ny n * ∑ y : Fin ny, val (flipAt p x) y * wave ny (flipInt q n) y) * wave nx m x := by
    intro x
    rw [← sum_flip q n fun y => val (flipAt p x) y, Finset.sum_mul]
    refine Finset.sum_congr rfl fun y _ => ?_
    ring
  simp only [h1]
  rw [sum_flip p m fun x => flipPhase q ny n * ∑ y : Fin ny, val x y * wave ny (flipInt q n) y, mul_assoc]
  congr 1
  rw [Finset.mul_sum]
  refine Finset.sum_congr rfl fun x _ => ?_
  rw [mul_assoc, Finset.sum_mul]
  congr 1
  refine Finset.sum_congr rfl fun y _ => ?_
  ring

theorem fourierCoef_transpose (a : Arr2) (m n : ℤ) : fourierCoef a.axesExchanged n m = fourierCoef a m n := by
  rw [fourierCoef_eq, fourierCoef_eq]
  simp only [Arr2.axesExchanged]
  rw [Finset.sum_comm, mul_comm (a.ny : ℂ)]
  congr 1
  refine Finset.sum_congr rfl fun x _ => ?_
  refine Finset.sum_congr rfl fun y _ => ?_
  ring

/-! ### Permittivities by orders -/

theorem permittivity_order {P Q : ℕ} {jv1 : ℝ → ℝ} {e : Expansion (P * Q)} (he : e.pw = (P, Q)) {a : Arr2}
    {C : Matrix (Fin (P * Q)) (Fin (P * Q)) ℂ} (h : Permittivity jv1 e (.fft a) C) (r r' : Fin P) (s s' : Fin Q) :
    C (orderPos r s) (orderPos r' s') = fourierCoef a (((r : ℕ) : ℤ) - (r' : ℕ)) (((s : ℕ) : ℤ) - (s' : ℕ)) := by
  simp only [Permittivity] at h
  rw [h, he]
  simp only [← Int.natCast_mod, ← Int.natCast_ediv, orderPos_mod, orderPos_div]

/-- Uniform layers in both descriptions. -/
theorem uniform_fit {n N : ℕ} {f : Fin n → Fin N} (d : Fin n → ℂ) (eps : ℂ) :
    (eps • (1 : Matrix (Fin N) (Fin N) ℂ)) * embedMat f d = embedMat f d * (eps • (1 : Matrix (Fin n) (Fin n) ℂ)) := by
  simp

/-- The image of the orders of a device under a flip of the axes. -/
def flipOrder (P Q : ℕ) (p q : Bool) (b : Fin (P * Q)) : Fin (P * Q) :=
  orderPos (flipAt p ⟨b % P, Nat.mod_lt _ (Nat.pos_of_ne_zero fun h => by have := b.2; simp [h] at this)⟩)
    (flipAt q ⟨b / P, Nat.div_lt_of_lt_mul b.2⟩)

theorem flipOrder_pos {P Q : ℕ} (p q : Bool) (r : Fin P) (s : Fin Q) :
    flipOrder P Q p q (orderPos r s) = orderPos (flipAt p r) (flipAt q s) := by
  simp only [flipOrder, orderPos_mod, orderPos_div]

theorem flipAt_inj {p : Bool} {n : ℕ} {i j : Fin n} (h : flipAt p i = flipAt p j) : i = j := by
  cases p with
  | false => simpa [flipAt] using h
  | true => simpa [flipAt] using h

theorem flipOrder_inj {P Q : ℕ} (p q : Bool) : Function.Injective (flipOrder P Q p q) := by
  intro a b h
  obtain ⟨r, s, rfl⟩ := exists_orderPos a
  obtain ⟨r', s', rfl⟩ := exists_orderPos b
  rw [flipOrder_pos, flipOrder_pos, orderPos_inj] at h
  rw [flipAt_inj h.1, flipAt_inj h.2]

theorem flipAt_sub (p : Bool) {n : ℕ} (i j : Fin n) :
    ((flipAt p i : ℕ) : ℤ) - (flipAt p j : ℕ) = flipInt p (((i : ℕ) : ℤ) - (j : ℕ)) := by
  cases p with
  | false => simp [flipAt, flipInt]
  | true =>
    have hi := i.2
    have hj := j.2
    simp only [flipAt, flipInt, if_true, Fin.val_rev]
    omega

theorem flipAt_mid (p : Bool) {n : ℕ} (hn : n % 2 = 1) (i : Fin n) :
    ((flipAt p i : ℕ) : ℤ) - ((n - 1) / 2 : ℕ) = flipInt p (((i : ℕ) : ℤ) - ((n - 1) / 2 : ℕ)) := by
  cases p with
  | false => simp [flipAt, flipInt]
  | true =>
    have hi := i.2
    simp only [flipAt, flipInt, if_true, Fin.val_rev]
    omega

theorem flipInt_flipInt (p : Bool) (m : ℤ) : flipInt p (flipInt p m) = m := by
  cases p <;> simp [flipInt]

/-- The phase of an order under a flip. -/
noncomputable def flipPhases (P Q : ℕ) (p q : Bool) (K L : ℕ) (b : Fin (P * Q)) : ℂ :=
  flipPhase p K (flipInt p ((b : ℕ) % P : ℕ)) * flipPhase q L (flipInt q ((b : ℕ) / P : ℕ))

theorem flipPhase_sub (p : Bool) (K : ℕ) (m n : ℤ) :
    flipPhase p K (flipInt p (m - n)) * flipPhase p K (flipInt p n) = flipPhase p K (flipInt p m) := by
  cases p with
  | false => simp [flipPhase]
  | true =>
    simp only [flipPhase, flipInt, if_true]
    rw [← exp_add]
    congr 1
    push_cast
    ring

theorem flipPhase_eq {p : Bool} {K n : ℕ} (h : p = true → n = K) (m : ℤ) : flipPhase p n m = flipPhase p K m := by
  cases p with
  | false => simp [flipPhase]
  | true => rw [h rfl]

/-- A flipped layer. -/
theorem flipped_fit {P Q : ℕ} {jv1 : ℝ → ℝ} {e e' : Expansion (P * Q)} (he : e.pw = (P, Q)) (he' : e'.pw = (P, Q))
    {p q : Bool} {K L : ℕ} {f f' : Form} (hf : f.Flipped p q K L f') {C C' : Matrix (Fin (P * Q)) (Fin (P * Q)) ℂ}
    (h : Permittivity jv1 e f C) (h' : Permittivity jv1 e' f' C') :
    C' * embedMat (flipOrder P Q p q) (flipPhases P Q p q K L) =
      embedMat (flipOrder P Q p q) (flipPhases P Q p q K L) * C := by
  cases f with
  | uniform eps =>
    simp only [Form.Flipped] at hf
    subst hf
    simp only [Permittivity] at h h'
    rw [h, h']
    exact uniform_fit _ eps
  | fft a =>
    obtain ⟨hK, hL, rfl⟩ := hf
    refine embed_fit (flipOrder_inj p q) (fun x y => ?_) fun x hx => ?_
    · obtain ⟨r, s, rfl⟩ := exists_orderPos x
      obtain ⟨r', s', rfl⟩ := exists_orderPos y
      rw [flipOrder_pos, flipOrder_pos, permittivity_order he' h', permittivity_order he h, fourierCoef_flip,
        flipAt_sub, flipAt_sub, flipInt_flipInt, flipInt_flipInt, flipPhase_eq hK, flipPhase_eq hL]
      simp only [flipPhases, orderPos_mod, orderPos_div]
      rw [← flipPhase_sub p K ((r : ℕ) : ℤ) ((r' : ℕ) : ℤ), ← flipPhase_sub q L ((s : ℕ) : ℤ) ((s' : ℕ) : ℤ)]
      ring
    · exfalso
      obtain ⟨r, s, rfl⟩ := exists_orderPos x
      refine hx (orderPos (flipAt p r) (flipAt q s)) ?_
      rw [flipOrder_pos]
      have : ∀ {n : ℕ} (b : Bool) (i : Fin n), flipAt b (flipAt b i) = i := by
        intro n b i; cases b <;> simp [flipAt]
      rw [this, this]
  | analytical => exact absurd hf (by simp [Form.Flipped])
  | halfInc => exact absurd hf (by simp [Form.Flipped])
  | halfTrn => exact absurd hf (by simp [Form.Flipped])

/-! ### Lattices -/

theorem turned_reciproc {o : Turn} {p q : Bool} {lat : R2 × R2} {b b' : R2 × R2} (h : reciproc lat.1 lat.2 = .ok b)
    (h' : reciproc (turnedLattice o p q lat).1 (turnedLattice o p q lat).2 = .ok b') : b' = turnedLattice o p q b := by
  obtain ⟨hd, rfl⟩ := reciproc_eq_ok.1 h
  obtain ⟨hd', rfl⟩ := reciproc_eq_ok.1 h'
  have hdet : (turnedLattice o p q lat).1.1 * (turnedLattice o p q lat).2.2 -
      (turnedLattice o p q lat).1.2 * (turnedLattice o p q lat).2.1 =
      flipSign p * flipSign q * o.e * (lat.1.1 * lat.2.2 - lat.1.2 * lat.2.1) := by
    simp only [turnedLattice, Turn.app]
    linear_combination (flipSign p * flipSign q * o.e * (lat.1.1 * lat.2.2 - lat.1.2 * lat.2.1)) * o.unit
  rw [hdet]
  have hp : flipSign p ^ 2 = 1 := by cases p <;> simp [flipSign]
  have hq : flipSign q ^ 2 = 1 := by cases q <;> simp [flipSign]
  have hs := o.sign
  set D := lat.1.1 * lat.2.2 - lat.1.2 * lat.2.1 with hD
  have hinv : 2 * Real.pi / (flipSign p * flipSign q * o.e * D) = flipSign p * flipSign q * o.e * (2 * Real.pi / D) := by
    have h1 : flipSign p ≠ 0 := by intro h0; rw [h0] at hp; norm_num at hp
    have h2 : flipSign q ≠ 0 := by intro h0; rw [h0] at hq; norm_num at hq
    have h3 : o.e ≠ 0 := by intro h0; rw [h0] at hs; norm_num at hs
    rw [div_eq_iff (by positivity)]
    have : flipSign p * flipSign q * o.e * (2 * Real.pi / D) * (flipSign p * flipSign q * o.e * D) =
        flipSign p ^ 2 * flipSign q ^ 2 * o.e ^ 2 * (2 * Real.pi / D * D) := by ring
    rw [this, hp, hq, hs, div_mul_cancel₀ _ hd]
    ring
  rw [hinv]
  generalize 2 * Real.pi / D = k
  simp only [turnedLattice, Turn.app, Prod.mk.injEq]
  refine ⟨⟨?_, ?_⟩, ?_, ?_⟩
  · linear_combination (flipSign p * o.e * (o.s * lat.2.1 + o.e * o.c * lat.2.2) * k) * hq + (flipSign p * o.c * lat.2.2 * k) * hs
  · linear_combination -(flipSign p * o.e * (o.c * lat.2.1 - o.e * o.s * lat.2.2) * k) * hq + (flipSign p * o.s * lat.2.2 * k) * hs
  · linear_combination -(flipSign q * o.e * (o.s * lat.1.1 + o.e * o.c * lat.1.2) * k) * hp - (flipSign q * o.c * lat.1.2 * k) * hs
  · linear_combination (flipSign q * o.e * (o.c * lat.1.1 - o.e * o.s * lat.1.2) * k) * hp - (flipSign q * o.s * lat.1.2 * k) * hs

theorem turned_latticeVec (o : Turn) (p q : Bool) (b : R2 × R2) (m n : ℤ) :
    latticeVec (turnedLattice o p q b) (flipInt p m, flipInt q n) = o.app (latticeVec b (m, n)) := by
  cases p <;> cases q <;>
    simp only [latticeVec, turnedLattice, Turn.app, flipSign, flipInt, if_true, if_false, Bool.false_eq_true, Prod.mk.injEq] <;>
    constructor <;> push_cast <;> ring

/-! ### Exchanged vectors -/

/-- The order `(r, s)` becomes the order `(s, r)`. -/
def swapOrder (P Q : ℕ) (b : Fin (P * Q)) : Fin (Q * P) :=
  orderPos ⟨b / P, Nat.div_lt_of_lt_mul b.2⟩
    ⟨b % P, Nat.mod_lt _ (Nat.pos_of_ne_zero fun h => by have := b.2; simp [h] at this)⟩

theorem swapOrder_pos {P Q : ℕ} (r : Fin P) (s : Fin Q) : swapOrder P Q (orderPos r s) = orderPos s r := by
  simp only [swapOrder, orderPos_mod, orderPos_div]

theorem swapOrder_inj (P Q : ℕ) : Function.Injective (swapOrder P Q) := by
  intro a b h
  obtain ⟨r, s, rfl⟩ := exists_orderPos a
  obtain ⟨r', s', rfl⟩ := exists_orderPos b
  rw [swapOrder_pos, swapOrder_pos, orderPos_inj] at h
  rw [h.1, h.2]

theorem transposed_fit {P Q : ℕ} {jv1 : ℝ → ℝ} {e : Expansion (P * Q)} {e' : Expansion (Q * P)} (he : e.pw = (P, Q))
    (he' : e'.pw = (Q, P)) {f f' : Form} (hf : f.Transposed f') {C : Matrix (Fin (P * Q)) (Fin (P * Q)) ℂ}
    {C' : Matrix (Fin (Q * P)) (Fin (Q * P)) ℂ} (h : Permittivity jv1 e f C) (h' : Permittivity jv1 e' f' C') :
    C' * embedMat (swapOrder P Q) (fun _ => 1) = embedMat (swapOrder P Q) (fun _ => 1) * C := by
  cases f with
  | uniform eps =>
    simp only [Form.Transposed] at hf
    subst hf
    simp only [Permittivity] at h h'
    rw [h, h']
    exact uniform_fit _ eps
  | fft a =>
    simp only [Form.Transposed] at hf
    subst hf
    refine embed_fit (swapOrder_inj P Q) (fun x y => ?_) fun x hx => ?_
    · obtain ⟨r, s, rfl⟩ := exists_orderPos x
      obtain ⟨r', s', rfl⟩ := exists_orderPos y
      rw [swapOrder_pos, swapOrder_pos, permittivity_order he' h', permittivity_order he h, fourierCoef_transpose]
      ring
    · exfalso
      obtain ⟨s, r, rfl⟩ := exists_orderPos x
      exact hx (orderPos r s) (swapOrder_pos r s).symm
  | analytical => exact absurd hf (by simp [Form.Transposed])
  | halfInc => exact absurd hf (by simp [Form.Transposed])
  | halfTrn => exact absurd hf (by simp [Form.Transposed])

theorem swapped_reciproc {a1 a2 : R2} {b b' : R2 × R2} (h : reciproc a1 a2 = .ok b) (h' : reciproc a2 a1 = .ok b') :
    b' = (b.2, b.1) := by
  obtain ⟨hd, rfl⟩ := reciproc_eq_ok.1 h
  obtain ⟨hd', rfl⟩ := reciproc_eq_ok.1 h'
  have : 2 * Real.pi / (a2.1 * a1.2 - a2.2 * a1.1) = -(2 * Real.pi / (a1.1 * a2.2 - a1.2 * a2.1)) := by
    rw [← div_neg]
    congr 1
    ring
  rw [this]
  simp only [Prod.mk.injEq]
  refine ⟨⟨?_, ?_⟩, ?_, ?_⟩ <;> ring

theorem reciproc_swap_ok {a1 a2 : R2} {b : R2 × R2} (h : reciproc a1 a2 = .ok b) : reciproc a2 a1 = .ok (b.2, b.1) := by
  obtain ⟨hd, hb⟩ := reciproc_eq_ok.1 h
  have hd' : a2.1 * a1.2 - a2.2 * a1.1 ≠ 0 := fun h0 => hd (by linear_combination -h0)
  have h' := (reciproc_eq_ok (a1 := a2) (a2 := a1)).2 ⟨hd', rfl⟩
  rw [h', swapped_reciproc h h']

/-! ### Lines -/

/-- The orders of a grating among those with several orders along the lines. -/
def lineOrder {P Q : ℕ} (s0 : Fin Q) (b : Fin (P * 1)) : Fin (P * Q) :=
  orderPos ⟨b, lt_of_lt_of_eq b.2 (Nat.mul_one P)⟩ s0

theorem lineOrder_inj {P Q : ℕ} (s0 : Fin Q) : Function.Injective (lineOrder (P := P) s0) := by
  intro a b h
  have := (orderPos_inj.1 h).1
  exact Fin.ext (Fin.mk.inj this)

theorem lineOrder_pos {P Q : ℕ} (s0 : Fin Q) (r : Fin P) (s : Fin 1) :
    lineOrder s0 (orderPos r s) = orderPos r s0 := by
  unfold lineOrder
  congr 1
  apply Fin.ext
  simp [orderPos]

theorem lines_fit {P Q : ℕ} {jv1 : ℝ → ℝ} {e : Expansion (P * 1)} {e' : Expansion (P * Q)} (he : e.pw = (P, 1))
    (he' : e'.pw = (P, Q)) (s0 : Fin Q) {f f' : Form} (hf : f.SameLines Q f') {C : Matrix (Fin (P * 1)) (Fin (P * 1)) ℂ}
    {C' : Matrix (Fin (P * Q)) (Fin (P * Q)) ℂ} (h : Permittivity jv1 e f C) (h' : Permittivity jv1 e' f' C') :
    C' * embedMat (lineOrder s0) (fun _ => 1) = embedMat (lineOrder s0) (fun _ => 1) * C := by
  cases f with
  | uniform eps =>
    simp only [Form.SameLines] at hf
    subst hf
    simp only [Permittivity] at h h'
    rw [h, h']
    exact uniform_fit _ eps
  | fft a =>
    obtain ⟨a', rfl, hnx, hy, hQ, hv⟩ := hf
    have hQ0 := s0.2
    let g : ℕ → ℂ := fun x => if hx : x < a.nx then a.val ⟨x, hx⟩ ⟨0, by omega⟩ else 0
    have hg' : ∀ x y, a'.val x y = g x := by
      intro x y
      have hx : (x : ℕ) < a.nx := by rw [← hnx]; exact x.2
      simp only [g, hx, dif_pos]
      exact hv ⟨x, hx⟩ ⟨0, by omega⟩ x y rfl
    have hg : ∀ x y, a.val x y = g x := by
      intro x y
      have hx : (x : ℕ) < a'.nx := by rw [hnx]; exact x.2
      rw [← hv x y ⟨x, hx⟩ ⟨0, by omega⟩ rfl, hg']
    refine embed_fit (lineOrder_inj s0) (fun x y => ?_) fun x hx y => ?_
    · obtain ⟨r, s, rfl⟩ := exists_orderPos x
      obtain ⟨r', s', rfl⟩ := exists_orderPos y
      have hss : ((s : ℕ) : ℤ) - (s' : ℕ) = 0 := by omega
      rw [lineOrder_pos, lineOrder_pos, permittivity_order he' h', permittivity_order he h, sub_self, hss,
        fourierCoef_lines_zero hg' (by omega), fourierCoef_lines_zero hg hy, mul_one, one_mul, hnx]
    · obtain ⟨r, s, rfl⟩ := exists_orderPos x
      obtain ⟨r', s', rfl⟩ := exists_orderPos y
      rw [lineOrder_pos, permittivity_order he' h']
      have hne : s ≠ s0 := by
        rintro rfl
        exact hx (orderPos r 0) (lineOrder_pos _ r 0).symm
      have hne' : (s : ℕ) ≠ s0 := fun h0 => hne (Fin.ext h0)
      have hs := s.2
      refine fourierCoef_lines_ne hg' _ (by omega) ?_
      rw [abs_lt]
      omega
  | analytical => exact absurd hf (by simp [Form.SameLines])
  | halfInc => exact absurd hf (by simp [Form.SameLines])
  | halfTrn => exact absurd hf (by simp [Form.SameLines])

theorem slid_reciproc {s t : ℝ} {lat : R2 × R2} {b b' : R2 × R2} (h : reciproc lat.1 lat.2 = .ok b)
    (h' : reciproc (slidLattice s t lat).1 (slidLattice s t lat).2 = .ok b') : b'.1 = b.1 := by
  obtain ⟨hd, rfl⟩ := reciproc_eq_ok.1 h
  obtain ⟨hd', rfl⟩ := reciproc_eq_ok.1 h'
  have hdet : (slidLattice s t lat).1.1 * (slidLattice s t lat).2.2 - (slidLattice s t lat).1.2 * (slidLattice s t lat).2.1 =
      s * (lat.1.1 * lat.2.2 - lat.1.2 * lat.2.1) := by
    simp only [slidLattice]; ring
  rw [hdet] at hd' ⊢
  have hs : s ≠ 0 := left_ne_zero_of_mul hd'
  simp only [slidLattice, Prod.mk.injEq]
  constructor <;> field_simp

end Khepri
