import Verif.Model.Expansion

/-!
# Turns and mirrors of the plane (specification)
-/

namespace Khepri

/-- A turn (`e = 1`) or a mirror followed by a turn (`e = -1`) of the plane. -/
structure Turn where
  c : ℝ
  s : ℝ
  e : ℝ
  unit : c ^ 2 + s ^ 2 = 1
  sign : e ^ 2 = 1

namespace Turn

/-- The image of a vector. -/
def app (o : Turn) (v : R2) : R2 := (o.c * v.1 - o.e * o.s * v.2, o.s * v.1 + o.e * o.c * v.2)

end Turn

/-- The polarisation `te', tm'` describes, at the turned wave vector, the turned incident wave (up to a global phase
`w`): at normal incidence `(te, tm)` are the components of the electric field along `x` and `y`, otherwise `te` is the
one normal to the plane of incidence, which a mirror reverses with respect to `tm`. -/
def SourceTurned (o : Turn) (kp : R2) (te tm te' tm' : ℂ) : Prop :=
  ∃ w : ℂ, ‖w‖ = 1 ∧
    ((kp = (0, 0) ∧ te' = w * (o.c * te - o.e * o.s * tm) ∧ tm' = w * (o.s * te + o.e * o.c * tm)) ∨
      ((1 / 10 ^ 8) ^ 2 ≤ kp.1 ^ 2 + kp.2 ^ 2 ∧ te' = w * te ∧ tm' = w * (o.e * tm)))

end Khepri
