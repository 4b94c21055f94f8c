import Verif.Spec.Fields
import Verif.Spec.Fourier
import Verif.Model.Layer

/-!
# Devices (specification): Maxwell's equations in each layer, plane waves in the outer media
-/

namespace Khepri

open Matrix

section
variable {ι : Type} [Fintype ι] [DecidableEq ι]

/-- `dE/dz = k0 P H`: the matrix `P` of Maxwell's equations in a layer of permittivity matrix `C`
(`E_z` eliminated). -/
noncomputable def maxwellP (kx ky : ι → ℂ) (C : Matrix ι ι ℂ) : Matrix (ι ⊕ ι) (ι ⊕ ι) ℂ :=
  fromBlocks (diagonal kx * C⁻¹ * diagonal ky) (1 - diagonal kx * C⁻¹ * diagonal kx)
    (diagonal ky * C⁻¹ * diagonal ky - 1) (-(diagonal ky * C⁻¹ * diagonal kx))

/-- `dH/dz = k0 Q E`: the matrix `Q` of Maxwell's equations (`H_z` eliminated). -/
noncomputable def maxwellQ (kx ky : ι → ℂ) (C : Matrix ι ι ℂ) : Matrix (ι ⊕ ι) (ι ⊕ ι) ℂ :=
  fromBlocks (diagonal kx * diagonal ky) (C - diagonal kx * diagonal kx)
    (diagonal ky * diagonal ky - C) (-(diagonal ky * diagonal kx))

/-- Longitudinal wave number of an order of a medium, from `x = er - kx² - ky²`: positive for a
propagating order, `-i` times a positive number for an evanescent one. -/
noncomputable def outerKz (x : ℝ) : ℂ := if 0 ≤ x then (Real.sqrt x : ℂ) else -Complex.I * (Real.sqrt (-x) : ℂ)

/-- Tangential fields in an outer medium of permittivity `er` with plane-wave amplitudes `p`:
the electric field is the sum of the two waves, and the magnetic field of a wave going forward
(backward) is `-Q E / (i kz)` (`+Q E / (i kz)`). -/
noncomputable def outerField (kx ky : ι → ℝ) (er : ℝ) (p : Port (ι ⊕ ι)) : Tang (ι ⊕ ι) :=
  ⟨p.fwd + p.bwd,
   maxwellQ (fun i => (kx i : ℂ)) (fun i => (ky i : ℂ)) ((er : ℂ) • 1) *ᵥ fun j =>
     (p.bwd j - p.fwd j) /
       (Complex.I * outerKz (er - kx (j.elim id id) ^ 2 - ky (j.elim id id) ^ 2))⟩

end

/-- The permittivity matrix of a layer over the orders of an expansion: a multiple of the identity for
a uniform layer, the Fourier coefficients at the differences of orders for a pixmap (order number `r`
is `(r % P, r / P)`), the analytical table otherwise. -/
def Permittivity {N : ℕ} (jv1 : ℝ → ℝ) (e : Expansion N) : Form → Matrix (Fin N) (Fin N) ℂ → Prop
  | .uniform eps, C => C = eps • 1
  | .fft pix, C => ∀ r c : Fin N, C r c =
      fourierCoef pix (((r : ℕ) % e.pw.1 : ℤ) - ((c : ℕ) % e.pw.1 : ℤ))
        (((r : ℕ) / e.pw.1 : ℤ) - ((c : ℕ) / e.pw.1 : ℤ))
  | .analytical islands host, C => analyticalC jv1 e islands host = .ok C
  | .halfInc _, _ => False
  | .halfTrn _, _ => False

/-- A form that describes a layer of finite depth. -/
def Form.isLayer : Form → Prop
  | .halfInc _ => False
  | .halfTrn _ => False
  | _ => True

end Khepri
