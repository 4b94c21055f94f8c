import Verif.Model.Ez
import Verif.Model.Draw

/-!
# `khepri/ez.py`: `compute_spectrum`
-/

namespace Khepri

open Matrix

/-- The argument of `json_linspace`, `ez.py:41-42`. -/
structure EzSweep where
  start : ℝ
  stop : ℝ
  steps : ℕ

/-- `json_linspace(json)`, `ez.py:41-42`. -/
noncomputable def EzSweep.values (w : EzSweep) : List ℝ := (List.range w.steps).map (linspaceAt w.start w.stop w.steps)

/-- The entries of a study that `compute_spectrum` reads, `ez.py:83-84` and `107-110`. -/
structure EzStudy where
  phi : EzSweep
  theta : EzSweep
  frequency : EzSweep
  s : ℂ
  p : ℂ

/-- A row of the result, `ez.py:157` and the header of `ez.py:164`. -/
structure EzRow where
  phi : ℝ
  theta : ℝ
  frequency : ℝ
  wavelength : ℝ
  R : ℝ
  T : ℝ
  A : ℝ

/-- `configs`, `ez.py:107-110`: `itertools.product`, the last factor running fastest. -/
noncomputable def EzStudy.configs (st : EzStudy) : List (ℝ × ℝ × ℝ) :=
  st.phi.values ×ˢ (st.theta.values ×ˢ st.frequency.values)

/-- `pin` (made for `pw`) as the right operand of `@`: the sizes of the matrix and of the vector must agree. -/
def fitVector (pw s : ℕ × ℕ)
    (p : (Fin (pw.1 * pw.2) ⊕ Fin (pw.1 * pw.2)) ⊕ (Fin (pw.1 * pw.2) ⊕ Fin (pw.1 * pw.2)) → ℂ) : Py (TIdx s → ℂ) :=
  if h : s.1 * s.2 = pw.1 * pw.2 then
    .ok (p ∘ Sum.map (Sum.map (Fin.cast h) (Fin.cast h)) (Sum.map (Fin.cast h) (Fin.cast h)))
  else .error .value

/-- One turn of the loop, `ez.py:111-157`: the S-matrix of the device, `Stot @ pin` (`tmat/scattering.py:19-23`) and the
fluxes.  (`required_layers` is computed once in the code, which makes no difference.) -/
noncomputable def ezPoint (jv1 : ℝ → ℝ) (cfg : EzConfig) (fuel : ℕ) (l : TLattice) (s p : ℂ) (device : String)
    (c : ℝ × ℝ × ℝ) : Py EzRow := do
  pyCheck (c.2.2 ≠ 0) .nonFinite
  let wl := cfg.a / c.2.2
  let kp ← computeKplanar l.epsI.val wl c.2.1 c.1
  let S ← ezDevice jv1 cfg fuel l wl kp device
  let pin0 ← tmatIncident cfg.pw 1 p s
  let pin ← fitVector cfg.pw l.shape pin0
  let f ← computeFluxes l wl pin (S *ᵥ pin) kp
  return ⟨c.1, c.2.1, c.2.2, wl, f.1, f.2.1, f.2.2⟩

/-- `compute_spectrum(layers, materials, params, device)`, `ez.py:78-157`: the list `rta` (which the code plots and
saves).  Which of several errors comes first is not kept. -/
noncomputable def ezSpectrum (jv1 : ℝ → ℝ) (cfg : EzConfig) (fuel : ℕ) (st : EzStudy) (device : String) : Py (List EzRow) := do
  let l ← ezLattice cfg
  let _ ← tmatIncident cfg.pw 1 st.p st.s
  let req ← gatherS cfg fuel device []
  pyCheck (0 < req.length) .assertion
  st.configs.mapM (ezPoint jv1 cfg fuel l st.s st.p device)

end Khepri
