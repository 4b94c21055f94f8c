import Verif.Spec.Tmat
import Verif.Spec.Ez

/-!
# T-matrix devices turned over (specification)
-/

namespace Khepri

open Matrix Complex

/-- What a layer is made of, and into how many slices (a power of 2) it is cut. -/
structure TSheet where
  islands : List (TShape × ℂ)
  host : ℂ
  depth : ℝ
  slicing : ℕ

/-- The same layer, cut into slices differently or not. -/
def TSheet.Same (s s' : TSheet) : Prop := s'.islands = s.islands ∧ s'.host = s.host ∧ s'.depth = s.depth

/-- The lattice with the two outer media exchanged. -/
@[reducible] def TLattice.turned (l : TLattice) : TLattice := { l with epsI := l.epsE, epsE := l.epsI }

/-- The layers in order, then the interface, multiplied from left to right, as in `ez.py:139-153`. -/
noncomputable def TLattice.deviceOf (l : TLattice) (jv1 : ℝ → ℝ) (wl : ℝ) (kp : ℂ × ℂ) (sheets : List TSheet) :
    Py (Matrix (TIdx l.shape) (TIdx l.shape) ℂ) := do
  let Ss ← sheets.mapM fun s => tmatScattering jv1 l s.islands s.host wl kp s.depth s.slicing
  let Si ← tmatInterface l wl kp
  match Ss with
  | [] => return Si
  | S0 :: t =>
    let S1 ← t.foldlM multS S0
    multS S1 Si

section
variable {g : Type}

/-- The sign of a wave seen in a mirror: the second polarisation changes sign. -/
def turnSign : (g ⊕ g) ⊕ (g ⊕ g) → ℂ := Sum.elim (Sum.elim (fun _ => 1) (fun _ => -1)) (Sum.elim (fun _ => 1) (fun _ => -1))

/-- The S-matrix `S'` is `S` seen from the other side. -/
def TTurned (S S' : Matrix ((g ⊕ g) ⊕ (g ⊕ g)) ((g ⊕ g) ⊕ (g ⊕ g)) ℂ) : Prop :=
  ∀ x y, S' x y = turnSign x * turnSign y * S x.swap y.swap

end

/-- Fields `F` on the left and `G` on the right of a layer: a solution of Maxwell's equations goes from one to the other. -/
def TSheet.Fields (s : TSheet) (jv1 : ℝ → ℝ) (l : TLattice) (wl : ℝ) (kp : ℂ × ℂ) (F G : TIdx l.shape → ℂ) : Prop :=
  ∃ f, TMaxwell (l.wave kp) (l.coupling jv1 s.islands s.host id) (l.coupling jv1 s.islands s.host (1 / ·)) (2 * Real.pi / wl) f ∧
    f 0 = F ∧ f s.depth = G

end Khepri
