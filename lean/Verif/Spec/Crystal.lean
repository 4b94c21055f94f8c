import Verif.Model.Crystal
import Verif.Spec.Device

/-!
# Devices described by a `Crystal` (specification)
-/

namespace Khepri

/-- The iteration orders a Python `set(names)` can have. -/
def SetOrder (names order : List String) : Prop := order.Nodup ∧ ∀ x, x ∈ order ↔ x ∈ names

/-- The crystal describes the device "entrance half space of permittivity `er`, layers `Ls` (named
`stack`), exit half space of permittivity `et`", all expanded on the crystal's own orders; `mask` says
for which layers of the stack fields were requested. -/
structure StandardDevice {N : ℕ} (c : Crystal N) (stack : List String) (mask : List Bool)
    (lr : Layer N) (Ls : List (Layer N)) (lt : Layer N) (er et : ℂ) : Prop where
  void : c.void = false
  device : c.deviceStack = some stack
  stacking : c.globalStacking = some ("Sref" :: (stack ++ ["Strans"]))
  retain : c.retainMask = true :: (mask ++ [true])
  mask_len : mask.length = stack.length
  ref : c.layers "Sref" = some (.plain lr)
  ref_form : lr.form = .halfInc er
  ref_exp : lr.expansion = c.expansion
  ref_depth : lr.depth = 0
  ref_fields : lr.fields = true
  trans : c.layers "Strans" = some (.plain lt)
  trans_form : lt.form = .halfTrn et
  trans_exp : lt.expansion = c.expansion
  trans_depth : lt.depth = 0
  trans_fields : lt.fields = true
  layers : List.Forall₂ (fun x l => c.layers x = some (.plain l) ∧ l.form.isLayer ∧
    l.expansion = c.expansion) stack Ls

/-- A crystal on which a user has registered the layers `Ls` under the names in `stack`, with outer
permittivities `er` and `et` and no outer medium of its own, and a mask `m` that fits the stack: what
`set_device(stack, m)` is meant for. -/
structure FreshDevice {N : ℕ} (c : Crystal N) (stack : List String) (m : Bool ⊕ List Bool)
    (Ls : List (Layer N)) (er et : ℂ) : Prop where
  void : c.void = false
  epsi : c.epsi = er
  epse : c.epse = et
  noRef : c.layers "Sref" = none
  noTrans : c.layers "Strans" = none
  layers : List.Forall₂ (fun x l => c.layers x = some (.plain l) ∧ l.form.isLayer ∧
    l.expansion = c.expansion) stack Ls
  mask : ∀ l, m = .inr l → l.length = stack.length

/-- In-plane wave vector components of the orders of an expansion, in units of `k0 = 2π / wl`. -/
noncomputable def orderKx {N : ℕ} (e : Expansion N) (kp : ℝ × ℝ) (wl : ℝ) (i : Fin N) : ℝ :=
  (kp.1 + (e.g i).1) / (2 * Real.pi / wl)

/-- Second component. -/
noncomputable def orderKy {N : ℕ} (e : Expansion N) (kp : ℝ × ℝ) (wl : ℝ) (i : Fin N) : ℝ :=
  (kp.2 + (e.g i).2) / (2 * Real.pi / wl)

/-- `Ms` lists Maxwell's equations `(P, Q, k0 * depth)` in each of the layers `Ls`, for the in-plane
wave vectors `kx, ky` and permittivity matrices `C`. -/
def LayerEquations {N : ℕ} (jv1 : ℝ → ℝ) (e : Expansion N) (kx ky : Fin N → ℝ) (k0 : ℝ)
    (Ls : List (Layer N)) (Ms : List (Mat2 N × Mat2 N × ℝ)) : Prop :=
  List.Forall₂ (fun l M => ∃ C, Permittivity jv1 e l.form C ∧ C.det ≠ 0 ∧
    M = (maxwellP (fun i => (kx i : ℂ)) (fun i => (ky i : ℂ)) C,
         maxwellQ (fun i => (kx i : ℂ)) (fun i => (ky i : ℂ)) C, l.depth * k0)) Ls Ms

end Khepri
