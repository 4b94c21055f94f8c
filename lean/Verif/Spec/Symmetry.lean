import Verif.Spec.Crystal
import Verif.Spec.Islands

/-!
# Equivalent devices (specification)
-/

namespace Khepri

/-- A complete calculation on a device: layers `Ls` under the names in `stack`, half spaces of permittivities `er`
and `et`, the source given by `wl, te, tm, theta, phi, kpo`, with real in-plane wave vector `kp`; `c3` is the
crystal after `solve`. -/
def DeviceRun {N : ℕ} (lib : NumLib) (c : Crystal N) (stack : List String) (m : Bool ⊕ List Bool)
    (Ls : List (Layer N)) (er et wl : ℝ) (te tm : ℂ) (theta phi : ℝ) (kpo : Option (ℂ × ℂ)) (kp : R2)
    (c3 : Crystal N) : Prop :=
  FreshDevice c stack m Ls er et ∧ ∃ c1 c2 order src, c.setDevice stack m = .ok c1 ∧
    c1.setSource wl te tm theta phi kpo = .ok c2 ∧ SetOrder ("Sref" :: (stack ++ ["Strans"])) order ∧
    c2.solve lib order = .ok c3 ∧ c2.source = some src ∧ src.kp = (↑kp.1, ↑kp.2)

/-- A shape enlarged `s` times. -/
def Shape.scale (s : ℝ) : Shape → Shape
  | .rectangle a b c d => .rectangle (s * a) (s * b) (s * c) (s * d)
  | .disc a b r => .disc (s * a) (s * b) (s * r)
  | .ellipse x y a b rot => .ellipse (s * x) (s * y) (s * a) (s * b) rot

/-- The description of a pattern enlarged `s` times: a pixmap covers the cell whatever the size of the cell. -/
def Form.scale (s : ℝ) : Form → Form
  | .analytical islands host => .analytical (islands.map fun i => ⟨i.shape.scale s, i.eps⟩) host
  | f => f

/-- A pixmap pushed around its periodic cell by `sx` pixels along the first axis and `sy` along the second, what
goes out on one side coming in on the other (`np.roll(a, (sx, sy), axis=(0, 1))`). -/
def Arr2.roll (a : Arr2) (sx sy : ℕ) : Arr2 :=
  ⟨a.nx, a.ny, fun x y =>
    a.val ⟨(x + sx * (a.nx - 1)) % a.nx, Nat.mod_lt _ (Nat.lt_of_le_of_lt (Nat.zero_le _) x.2)⟩
      ⟨(y + sy * (a.ny - 1)) % a.ny, Nat.mod_lt _ (Nat.lt_of_le_of_lt (Nat.zero_le _) y.2)⟩⟩

/-- The pattern `f'` is the pattern `f` shifted by the fractions `t` of the two periods. -/
def Form.Shifted (t : R2) (f f' : Form) : Prop :=
  match f with
  | .uniform eps => f' = .uniform eps
  | .fft a => ∃ sx sy : ℕ, (sx : ℝ) = t.1 * a.nx ∧ (sy : ℝ) = t.2 * a.ny ∧ f' = .fft (a.roll sx sy)
  | _ => False

/-- Amplitudes of plane waves whose electric field is turned by an angle. -/
noncomputable def turned {N : ℕ} (a : ℝ) (v : Vec2 N) : Vec2 N :=
  Sum.elim (fun i => Real.cos a * v (.inl i) - Real.sin a * v (.inr i))
    (fun i => Real.sin a * v (.inl i) + Real.cos a * v (.inr i))

/-- Phase of order number `r` for a shift of the pattern by the fractions `t` of the periods. -/
noncomputable def shiftPhase (P : ℕ) (t : R2) (r : ℕ) : ℂ :=
  Complex.exp (-(2 * Real.pi * Complex.I * (((r % P : ℕ) : ℂ) * t.1 + ((r / P : ℕ) : ℂ) * t.2)))

/-- Amplitudes of plane waves multiplied, order by order, by the phases of a shift (`P` orders along the first
vector). -/
noncomputable def shifted {N : ℕ} (P : ℕ) (t : R2) (v : Vec2 N) : Vec2 N :=
  fun j => shiftPhase P t (j.elim id id : Fin N) * v j

/-- A lattice enlarged `s` times. -/
def scaledLattice (s : ℝ) (lat : R2 × R2) : R2 × R2 :=
  ((s * lat.1.1, s * lat.1.2), (s * lat.2.1, s * lat.2.2))

end Khepri
