import Verif.Spec.Crystal
import Verif.Spec.Extension
import Verif.Spec.Profile

/-!
# Stacks of layers of two lattices (specification)

The orders of the joint space are the pairs of orders of the two lattices: order `(r, i)` has the wave vector
of order `r` of the first lattice plus that of order `i` of the second one.
-/

namespace Khepri

open Matrix

variable {M : ℕ}

/-- What a user stacks in a crystal of two lattices: a uniform layer, or a layer of the first or of the second lattice
(`add_layer(name, layer, extended=True)`). -/
inductive TwistedLayer (M : ℕ)
  | uniform (eps : ℂ) (depth : ℝ)
  | first (l : Layer M)
  | second (l : Layer M)

namespace TwistedLayer

/-- Thickness. -/
def depth : TwistedLayer M → ℝ
  | uniform _ d => d
  | first l => l.depth
  | second l => l.depth

/-- The permittivity of a layer in the joint space: a layer of the first lattice couples the orders `(r, i)` and
`(c, i)` as it couples the orders `r` and `c` of its own lattice, whatever `i`; a layer of the second lattice couples
`(i, r)` and `(i, c)`. -/
def Permittivity (jv1 : ℝ → ℝ) (lhs rhs : Expansion M) :
    TwistedLayer M → Matrix (Fin (M * M)) (Fin (M * M)) ℂ → Prop
  | uniform eps _, C => C = eps • 1
  | first l, C => ∃ C1, Khepri.Permittivity jv1 lhs l.form C1 ∧
      ∀ r c i j, C (pairPos r i) (pairPos c j) = if i = j then C1 r c else 0
  | second l, C => ∃ C2, Khepri.Permittivity jv1 rhs l.form C2 ∧
      ∀ r c i j, C (pairPos i r) (pairPos j c) = if i = j then C2 r c else 0

/-- The layer is registered under the name `x` in a crystal of the space `se`. -/
def Registered (se : SumExpansion M) (c : Crystal (M * M)) (x : String) : TwistedLayer M → Prop
  | uniform eps d => ∃ l, c.layers x = some (.plain l) ∧ l.form = .uniform eps ∧ l.depth = d ∧
      l.expansion = c.expansion
  | first l => l.expansion = se.lhs ∧ l.form.isLayer ∧ ∃ a, ExtLayer.make se l = .ok a ∧ c.layers x = some (.ext a)
  | second l => l.expansion = se.rhs ∧ l.form.isLayer ∧ ∃ a, ExtLayer.make se l = .ok a ∧ c.layers x = some (.ext a)

end TwistedLayer

/-- A crystal of the joint space of two lattices on which the layers `Ls` are registered under the names in `stack`. -/
structure TwistedDevice (se : SumExpansion M) (c : Crystal (M * M)) (stack : List String) (m : Bool ⊕ List Bool)
    (Ls : List (TwistedLayer M)) (er et : ℂ) : Prop where
  space : c.expansion = se.exp
  two : se.lhs.tag ≠ se.rhs.tag
  void : c.void = false
  epsi : c.epsi = er
  epse : c.epse = et
  noRef : c.layers "Sref" = none
  noTrans : c.layers "Strans" = none
  layers : List.Forall₂ (TwistedLayer.Registered se c) stack Ls
  mask : ∀ l, m = .inr l → l.length = stack.length

/-- `Ms` lists Maxwell's equations `(P, Q, k0 * depth)` in each of the layers. -/
def TwistedEquations (jv1 : ℝ → ℝ) (lhs rhs : Expansion M) (kx ky : Fin (M * M) → ℝ) (k0 : ℝ)
    (Ls : List (TwistedLayer M)) (Ms : List (Mat2 (M * M) × Mat2 (M * M) × ℝ)) : Prop :=
  List.Forall₂ (fun l X => ∃ C, l.Permittivity jv1 lhs rhs C ∧ C.det ≠ 0 ∧
    X = (maxwellP (fun i => (kx i : ℂ)) (fun i => (ky i : ℂ)) C,
         maxwellQ (fun i => (kx i : ℂ)) (fun i => (ky i : ℂ)) C, l.depth * k0)) Ls Ms

/-- `C` is the permittivity of the medium at depth `z`: that of the layer the depth is in, of the incidence medium
before the layers, of the emergence medium after them. -/
def TwistedPermittivityAt (jv1 : ℝ → ℝ) (lhs rhs : Expansion M) (Ls : List (TwistedLayer M)) (er et z : ℝ)
    (C : Matrix (Fin (M * M)) (Fin (M * M)) ℂ) : Prop :=
  (z ≤ 0 ∧ C = (er : ℂ) • 1) ∨ ((Ls.map TwistedLayer.depth).sum < z ∧ C = (et : ℂ) • 1) ∨
    ∃ i l, Ls[i]? = some l ∧ startOf (Ls.map TwistedLayer.depth) i < z ∧
      z ≤ startOf (Ls.map TwistedLayer.depth) (i + 1) ∧ l.Permittivity jv1 lhs rhs C

/-- The depth `z` is in a layer of one of the two lattices (not in an outer medium, nor in a uniform layer). -/
def InLatticeLayer (Ls : List (TwistedLayer M)) (z : ℝ) : Prop :=
  ∃ i l, Ls[i]? = some l ∧ startOf (Ls.map TwistedLayer.depth) i < z ∧
    z ≤ startOf (Ls.map TwistedLayer.depth) (i + 1) ∧ ∀ eps d, l ≠ .uniform eps d

end Khepri
