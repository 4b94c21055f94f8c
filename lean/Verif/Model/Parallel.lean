import Verif.Model.Fourier

/-!
# The parallel loops of `khepri/fourier.py`: `dft`, `slow_dft`, `idft2`

numba's `prange` runs the iterations of a loop on several threads, in no particular order.  `dft` and `slow_dft` update
one element of a shared array at a time; each `+=` is a load, an addition and a store, and those of different iterations
interleave freely: a schedule is any list of iteration numbers, each entry letting that iteration do one instruction.
`idft2` adds whole arrays to a variable that numba recognises as a reduction: each thread adds up the iterations it was
given in an array of its own, and the arrays of the threads are added up at the end, in any order.
-/

namespace Khepri

open Complex

/-- One instruction of an iteration; every iteration has one register. -/
inductive Instr (ι : Type)
  | load (cell : ι)
  | add (v : ℂ)
  | store (cell : ι)

/-- What is left to do of one iteration, and its register. -/
structure Iter (ι : Type) where
  reg : ℂ
  prog : List (Instr ι)

/-- The shared array and the iterations. -/
structure Machine (ι : Type) where
  shared : ι → ℂ
  iters : ι → Iter ι

section
variable {ι : Type} [DecidableEq ι]

/-- One instruction of iteration `i` (none if it is over). -/
def Machine.step (m : Machine ι) (i : ι) : Machine ι :=
  match (m.iters i).prog with
  | [] => m
  | .load c :: p => { m with iters := Function.update m.iters i ⟨m.shared c, p⟩ }
  | .add v :: p => { m with iters := Function.update m.iters i ⟨(m.iters i).reg + v, p⟩ }
  | .store c :: p => { shared := Function.update m.shared c (m.iters i).reg
                       iters := Function.update m.iters i ⟨(m.iters i).reg, p⟩ }

/-- A schedule. -/
def Machine.run (m : Machine ι) (sched : List ι) : Machine ι := sched.foldl Machine.step m

/-- Every iteration is over. -/
def Machine.Finished (m : Machine ι) : Prop := ∀ i, (m.iters i).prog = []

/-- `np.zeros_like(kx)` and the iterations of a `prange` about to start. -/
def Machine.start (progs : ι → List (Instr ι)) : Machine ι := ⟨fun _ => 0, fun i => ⟨0, progs i⟩⟩

/-- `ffields[i] += v`. -/
def augAdd (i : ι) (v : ℂ) : List (Instr ι) := [.load i, .add v, .store i]

/-- The inner loop of `dft`, `fourier.py:85-89`, from the running phase `KYl` on. -/
def dftRow (i : ι) (KXk KY : ℂ) : List ℂ → ℂ → List (Instr ι)
  | [], _ => []
  | v :: vs, KYl => augAdd i (v * KXk * KYl) ++ dftRow i KXk KY vs (KYl * KY)

/-- The outer loop of `dft`, `fourier.py:83-90`, from the running phase `KXk` on. -/
def dftRows (i : ι) (KX KY : ℂ) : List (List ℂ) → ℂ → List (Instr ι)
  | [], _ => []
  | r :: rs, KXk => dftRow i KXk KY r 1 ++ dftRows i KX KY rs (KXk * KX)

end

/-- The rows of an array. -/
def Arr2.rows (f : Arr2) : List (List ℂ) := List.ofFn fun k => List.ofFn (f.val k)

/-- One iteration of `dft(field, kx, ky, a)`, `fourier.py:78-90`. -/
noncomputable def dftProg {N : ℕ} (f : Arr2) (kx ky : Fin N → ℂ) (a : ℝ) (i : Fin N) : List (Instr (Fin N)) :=
  let dx : ℝ := a / f.nx
  let KX := exp (-I * kx i * dx)
  let KY := exp (-I * ky i * dx)
  dftRows i KX KY f.rows 1

/-- `dft(field, kx, ky, a)` under a schedule, `fourier.py:74-91`; `a / len(field)` raises for an empty field.  The loop
over rows and columns of `field`, both with step `dx`. -/
noncomputable def dft {N : ℕ} (f : Arr2) (kx ky : Fin N → ℂ) (a : ℝ) (sched : List (Fin N)) : Py (Machine (Fin N)) := do
  pyCheck (f.nx ≠ 0) .nonFinite
  return (Machine.start (dftProg f kx ky a)).run sched

/-- One iteration of `slow_dft(real_field, x, y, kx, ky)`, `fourier.py:101-103`. -/
noncomputable def slowDftProg {N M : ℕ} (f : Fin M → ℂ) (x y : Fin M → ℝ) (kx ky : Fin N → ℂ) (i : Fin N) :
    List (Instr (Fin N)) :=
  (List.finRange M).flatMap fun k => augAdd i (f k * exp (-I * (kx i * x k + ky i * y k)))

/-- `slow_dft(real_field, x, y, kx, ky)` under a schedule, `fourier.py:93-104` (`x`, `y` as long as `real_field`; numba
does not check bounds). -/
noncomputable def slowDft {N M : ℕ} (f : Fin M → ℂ) (x y : Fin M → ℝ) (kx ky : Fin N → ℂ) (sched : List (Fin N)) :
    Machine (Fin N) :=
  (Machine.start (slowDftProg f x y kx ky)).run sched

/-- A grid of coordinates. -/
structure RArr2 where
  nx : ℕ
  ny : ℕ
  val : Fin nx → Fin ny → ℝ

/-- The elements of a grid in C order. -/
def RArr2.elems (x : RArr2) : List ℝ := (List.ofFn fun k => List.ofFn (x.val k)).flatten

/-- `np.min`, `np.max`: refuse empty arrays. -/
def npMin : List ℝ → Py ℝ
  | [] => .error .value
  | a :: t => .ok (t.foldl min a)

/-- `np.max`. -/
def npMax : List ℝ → Py ℝ
  | [] => .error .value
  | a :: t => .ok (t.foldl max a)

/-- The inner loop of iteration `i` of `idft2`, `fourier.py:125-129`: the elements of one row, from `KYl` on. -/
def idft2Row (f KXk KY : ℂ) : ℕ → ℂ → List ℂ
  | 0, _ => []
  | n + 1, KYl => (0 + f * KXk * KYl) :: idft2Row f KXk KY n (KYl * KY)

/-- The outer loop of iteration `i` of `idft2`, `fourier.py:123-130`: the rows of `field_i`, from `KXk` on. -/
def idft2Rows (f KX KY KY0 : ℂ) (ny : ℕ) : ℕ → ℂ → List (List ℂ)
  | 0, _ => []
  | n + 1, KXk => idft2Row f KXk KY ny KY0 :: idft2Rows f KX KY KY0 ny n (KXk * KX)

/-- Elementwise sum of two lists of rows of the same shape. -/
def addRows (a b : List (List ℂ)) : List (List ℂ) := List.zipWith (List.zipWith (· + ·)) a b

/-- `np.zeros_like(x)`. -/
def zeroRows (nx ny : ℕ) : List (List ℂ) := List.replicate nx (List.replicate ny 0)

/-- `idft2(ffield, kx, ky, x, y)`, `fourier.py:106-132`.  `chunks` says which iterations each thread did, in which order,
and in which order the threads' arrays were added up. -/
noncomputable def idft2 {N : ℕ} (f kx ky : Fin N → ℂ) (x y : RArr2) (chunks : List (List (Fin N))) :
    Py (List (List ℂ)) := do
  pyCheck (x.nx = y.nx ∧ x.ny = y.ny) .assertion
  let xmin ← npMin x.elems
  let xmax ← npMax x.elems
  let ymin ← npMin y.elems
  let ymax ← npMax y.elems
  let dx : ℝ := (xmax - xmin) / x.nx
  let dy : ℝ := (ymax - ymin) / x.ny
  let field (i : Fin N) : List (List ℂ) :=
    idft2Rows (f i) (exp (I * kx i * dx)) (exp (I * ky i * dy)) (exp (I * ky i * ymin)) x.ny x.nx (exp (I * kx i * xmin))
  let threads := chunks.map fun c => (c.map field).foldl addRows (zeroRows x.nx x.ny)
  return threads.foldl addRows (zeroRows x.nx x.ny)

end Khepri
