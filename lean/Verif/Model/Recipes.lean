import Verif.Model.Crystal

/-!
# S-matrices of single layers without a `Layer` object: `khepri/alternative.py:197-218`
-/

namespace Khepri

/-- What `scattering_uniform_layer` and `scattering_structured_layer` return with `return_eigenspace=True`:
`S, (LI, WI, VI)`. -/
structure LayerScattering (N : ℕ) where
  S : SMat (Fin N ⊕ Fin N)
  L : Vec2 N
  W : Mat2 N
  V : Mat2 N

/-- `scattering_uniform_layer(expansion, kp, wl, eps_layer, depth)`, `alternative.py:197-206`. -/
noncomputable def scatteringUniformLayer {N : ℕ} (e : Expansion N) (kp : ℂ × ℂ) (wl : ℝ) (eps : ℂ) (depth : ℝ) :
    Py (LayerScattering N) := do
  let (kx, ky, _) ← e.kVectors kp wl 1
  let (W0, V0) ← freeSpaceEigenmodes kx ky
  let k0 := 2 * Real.pi / wl
  let (W, V, L) ← solveUniformLayer kx ky eps
  let S ← buildScatmat W V W0 V0 L depth k0
  return ⟨S, L, W, V⟩

/-- `scattering_structured_layer(expansion, kp, wl, epsilon_map, depth)`, `alternative.py:208-218`. -/
noncomputable def scatteringStructuredLayer {N : ℕ} (lib : NumLib) (e : Expansion N) (kp : ℂ × ℂ) (wl : ℝ) (map : Arr2)
    (depth : ℝ) : Py (LayerScattering N) := do
  let (kx, ky, _) ← e.kVectors kp wl 1
  let (W0, V0) ← freeSpaceEigenmodes kx ky
  let k0 := 2 * Real.pi / wl
  let C ← convolutionMatrix N map e.pw
  let (W, V, L) ← solveStructuredLayer (lib.eig N) kx ky C
  let S ← buildScatmat W V W0 V0 L depth k0
  return ⟨S, L, W, V⟩

end Khepri
