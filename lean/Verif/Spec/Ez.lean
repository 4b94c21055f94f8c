import Verif.Model.Ez
import Verif.Spec.Tmat
import Verif.Spec.Islands

/-!
# What project files mean (specification)
-/

namespace Khepri

/-- How many times the layers of a stack are repeated: once by default. -/
def EzStack.reps (d : EzStack) : ℕ := (d.rep.getD 1).toNat

/-- The sequence of layers a name stands for, if stacks are nested at most `k - 1` times in it and every name is known. -/
def expand (cfg : EzConfig) : ℕ → String → Option (List String)
  | 0, _ => none
  | k + 1, name =>
    match cfg.stacking name with
    | some d => (d.layers.mapM (expand cfg k)).map fun Ls => (List.replicate d.reps Ls.flatten).flatten
    | none => if (cfg.layers name).isSome then some [name] else none

/-- Composition of relations along a list. -/
def RelChain {α V : Type} (R : α → V → V → Prop) : List α → V → V → Prop
  | [], u, w => u = w
  | x :: L, u, w => ∃ v, R x u v ∧ RelChain R L v w

/-- Depth of a layer (0 if there is none). -/
def EzConfig.depth (cfg : EzConfig) (name : String) : ℝ := ((cfg.layers name).map EzLayer.depth).getD 0

/-- Where a drawn solid starts and how high it is. -/
def EzDrawn.bottom : EzDrawn → ℝ
  | .box _ _ z _ _ _ => z
  | .cylinder _ _ z _ _ => z

/-- Height of a drawn solid. -/
def EzDrawn.height : EzDrawn → ℝ
  | .box _ _ _ _ _ h => h
  | .cylinder _ _ _ _ h => h

/-- The drawing of a sequence of layers from height `z` up: each layer is a box over the whole cell, preceded by its discs
and rectangles, all from the bottom to the top of the layer; the next layer starts where it ends. -/
def DrawnAs (cfg : EzConfig) : List String → ℝ → List EzDrawn → Prop
  | [], _, D => D = []
  | x :: L, z, D => ∃ ly isl rest, cfg.layers x = some ly ∧ D = isl ++ [.box 0 0 z 1 1 ly.depth] ++ rest ∧
      isl.length = (ly.geometry.filter fun i => i.shape == "disc" || i.shape == "rectangle").length ∧
      (∀ s ∈ isl, s.bottom = z ∧ s.height = ly.depth) ∧ DrawnAs cfg L (z + ly.depth) rest

/-- The numbers that describe an island: its centre, and its radius or else its size. -/
def EzIsland.Numbers (i : EzIsland) (ps : List ℝ) : Prop :=
  (∃ r, i.radius = some r ∧ ps = i.center ++ [r]) ∨ (i.radius = none ∧ ∃ s, i.size = some s ∧ ps = i.center ++ s) ∨
    (i.radius = none ∧ i.size = none ∧ ps = i.center)

/-- The shape a project's island is solved as, lengths in units of `a`. -/
def EzIsland.SolvedAs (i : EzIsland) (a : ℝ) : TShape → Prop
  | .uniform => i.shape = "uniform" ∧ i.Numbers []
  | .shape (.disc x y r) => i.shape = "disc" ∧ ∃ x' y' r', i.Numbers [x', y', r'] ∧ x = x' * a ∧ y = y' * a ∧ r = r' * a
  | .shape (.rectangle x y z t) => i.shape = "rectangle" ∧ ∃ x' y' z' t', i.Numbers [x', y', z', t'] ∧
      x = x' * a ∧ y = y' * a ∧ z = z' * a ∧ t = t' * a
  | .shape (.ellipse ..) => False

/-- The materials and shapes of a layer. -/
def EzLayer.Optics (cfg : EzConfig) (ly : EzLayer) (islands : List (TShape × ℂ)) (host : ℂ) : Prop :=
  (∃ e : ℝ, cfg.materials ly.material = some e ∧ host = e) ∧
    List.Forall₂ (fun (i : EzIsland) (d : TShape × ℂ) =>
      i.SolvedAs cfg.a d.1 ∧ ∃ e : ℝ, cfg.materials i.material = some e ∧ d.2 = e) ly.geometry islands

/-- Fields `F` below and `G` above the layer `x`: a solution of Maxwell's equations goes from one to the other over the
depth of the layer. -/
def EzConfig.LayerFields (cfg : EzConfig) (jv1 : ℝ → ℝ) (l : TLattice) (wl : ℝ) (kp : ℂ × ℂ) (x : String)
    (F G : TIdx l.shape → ℂ) : Prop :=
  ∃ ly islands host f, cfg.layers x = some ly ∧ ly.Optics cfg islands host ∧
    TMaxwell (l.wave kp) (l.coupling jv1 islands host id) (l.coupling jv1 islands host (1 / ·)) (2 * Real.pi / wl) f ∧
    f 0 = F ∧ f (ly.depth * cfg.a) = G

/-- No order of the project is affected by a numerical cut-off at the angles and frequency `c = (phi, theta, frequency)`:
reciprocal vectors are 0 or longer than the cut-off of discs, in-plane wave vectors are 0 or longer than the square root
of the rounding unit, and no evanescent wave decays by less than the rounding unit. -/
def EzConfig.Clear (cfg : EzConfig) (c : ℝ × ℝ × ℝ) : Prop :=
  ∀ l kp, ezLattice cfg = .ok l → computeKplanar l.epsI.val (cfg.a / c.2.2) c.2.1 c.1 = .ok kp →
    (∀ i j, i < l.q.1 → j < l.q.2 → ClearOf (l.Gx i j, l.Gy i j)) ∧
    (∀ k, l.wave kp k = 0 ∨ 1 / 2 ^ 52 ≤ ‖(l.wave kp k).1‖ ^ 2 + ‖(l.wave kp k).2‖ ^ 2) ∧
    ∀ eps ∈ [l.epsI, l.epsE], ∀ k, (flatT l.shape (l.kz eps (cfg.a / c.2.2) (0, 0)) k).im = 0 ∨
      floatEps < (flatT l.shape (l.kz eps (cfg.a / c.2.2) (0, 0)) k).im

/-- `x` is value number `i` of a sweep: the first is `start`, the last is `stop`, and they are equally spaced. -/
def SweepAt (start stop : ℝ) (steps i : ℕ) (x : ℝ) : Prop :=
  (i = 0 → x = start) ∧ (2 ≤ steps → i + 1 = steps → x = stop) ∧ ((steps : ℝ) - 1) * (x - start) = i * (stop - start)

/-- Power carried by amplitudes of squared moduli `x` in the medium `eps` *at normal incidence*, up to a constant. -/
noncomputable def TLattice.normalPower (l : TLattice) (eps : PyNum) (wl : ℝ) (x : Fin (l.shape.1 * l.shape.2) → ℝ) : ℝ :=
  ∑ k, if (flatT l.shape (l.kz eps wl (0, 0)) k).im = 0 then (flatT l.shape (l.kz eps wl (0, 0)) k).re * x k else 0

/-- The cross-section of a drawn solid. -/
def EzDrawn.Section : EzDrawn → R2 → Prop
  | .box x y _ sx sy _, p => (x ≤ p.1 ∧ p.1 ≤ x + sx) ∧ (y ≤ p.2 ∧ p.2 ≤ y + sy)
  | .cylinder x y _ r _, p => 0 ≤ r ∧ (p.1 - x) ^ 2 + (p.2 - y) ^ 2 < r ^ 2

end Khepri
