import Verif.Spec.Symmetry
import Verif.Spec.Turn

/-!
# Mirror images, turned devices and gratings (specification)
-/

namespace Khepri

/-- The position in the list of orders of order number `r` along the first vector and `s` along the second one. -/
def orderPos {P Q : ℕ} (r : Fin P) (s : Fin Q) : Fin (P * Q) :=
  ⟨r + P * s, by
    have hr := r.2
    have hs : (s : ℕ) + 1 ≤ Q := s.2
    calc (r : ℕ) + P * s < P + P * s := by omega
      _ = P * (s + 1) := by ring
      _ ≤ P * Q := Nat.mul_le_mul_left _ hs⟩

/-- `i`, counted from the other end if `b`. -/
def flipAt (b : Bool) {n : ℕ} (i : Fin n) : Fin n := if b then i.rev else i

/-- `np.flip` of a pixmap along the first axis (if `p`) and along the second one (if `q`). -/
def Arr2.flip (a : Arr2) (p q : Bool) : Arr2 := ⟨a.nx, a.ny, fun x y => a.val (flipAt p x) (flipAt q y)⟩

/-- `a.T`. -/
def Arr2.axesExchanged (a : Arr2) : Arr2 := ⟨a.ny, a.nx, fun x y => a.val y x⟩

/-- The sign of an axis. -/
def flipSign (b : Bool) : ℝ := if b then -1 else 1

/-- The pattern `f'` is the pattern `f` with its pixmap flipped along the axes `p, q`; `K` and `L` are the numbers of
pixels along the axes that are flipped. -/
def Form.Flipped (p q : Bool) (K L : ℕ) (f f' : Form) : Prop :=
  match f with
  | .uniform eps => f' = .uniform eps
  | .fft a => (p = true → a.nx = K) ∧ (q = true → a.ny = L) ∧ f' = .fft (a.flip p q)
  | _ => False

/-- The pattern `f'` is the pattern `f` with the two axes of its pixmap exchanged. -/
def Form.Transposed (f f' : Form) : Prop :=
  match f with
  | .uniform eps => f' = .uniform eps
  | .fft a => f' = .fft a.axesExchanged
  | _ => False

/-- The lattice turned (or mirrored) by `o`, with its vectors reversed where told. -/
def turnedLattice (o : Turn) (p q : Bool) (lat : R2 × R2) : R2 × R2 :=
  ((flipSign p * (o.app lat.1).1, flipSign p * (o.app lat.1).2),
   (flipSign q * (o.app lat.2).1, flipSign q * (o.app lat.2).2))

/-- The patterns `f` and `f'` are those of the same grating: the permittivity depends on the first axis only, and has
the same values on it.  The first pixmap has at least one column and the second at least `Q`. -/
def Form.SameLines (Q : ℕ) (f f' : Form) : Prop :=
  match f with
  | .uniform eps => f' = .uniform eps
  | .fft a => ∃ a' : Arr2, f' = .fft a' ∧ a'.nx = a.nx ∧ 1 ≤ a.ny ∧ Q ≤ a'.ny ∧
      ∀ (x : Fin a.nx) (y : Fin a.ny) (x' : Fin a'.nx) (y' : Fin a'.ny), (x' : ℕ) = x → a'.val x' y' = a.val x y
  | _ => False

/-- A lattice with the same lines: any second vector along them, and the first vector moved along them. -/
def slidLattice (s t : ℝ) (lat : R2 × R2) : R2 × R2 :=
  ((lat.1.1 + t * lat.2.1, lat.1.2 + t * lat.2.2), (s * lat.2.1, s * lat.2.2))

end Khepri
