import Verif.Model.Fourier
import Mathlib.Data.Finset.Sort

/-!
# `khepri/draw.py`: the `Drawing` class
-/

namespace Khepri

/-- A Python number given as a permittivity: a `float` (or `int`) or a `complex`. -/
inductive PyNum
  | float (r : ℝ)
  | complex (z : ℂ)

/-- Its value. -/
def PyNum.val : PyNum → ℂ
  | .float r => r
  | .complex z => z

/-- Whether its type is `complex`. -/
def PyNum.isComplex : PyNum → Bool
  | .float _ => false
  | .complex _ => true

/-- `np.linspace(a, b, n)[i]`. -/
noncomputable def linspaceAt (a b : ℝ) (n i : ℕ) : ℝ :=
  if n ≤ 1 then a else a + i * ((b - a) / (n - 1))

/-- A `Drawing` object of shape `(nx, ny)` (`draw.py:20-38`).  `cplx` is whether `_canvas` has a complex
`dtype`, which it has when the background permittivity is a complex number. -/
structure Drawing (nx ny : ℕ) where
  lattice : R2 × R2
  background : PyNum
  cplx : Bool
  canvas : Fin nx → Fin ny → ℂ
  islands : List Island

namespace Drawing
variable {nx ny : ℕ}

/-- `Drawing(shape, epsilon_background, lattice)`, `draw.py:21-38`, with `uniform`, `draw.py:17-18`, in place;
`np.min` of an empty grid raises `ValueError`. -/
noncomputable def make (nx ny : ℕ) (eps : PyNum) (lattice : Option (R2 × R2)) : Py (Drawing nx ny) := do
  let lat := lattice.getD ((1, 0), (0, 1))
  pyCheck (nx ≠ 0 ∧ ny ≠ 0) .value
  return { lattice := lat, background := eps, cplx := eps.isComplex, canvas := fun _ _ => eps.val, islands := [] }

/-- `self.X[i, j]`, `draw.py:30-34`. -/
noncomputable def X (d : Drawing nx ny) (i : Fin nx) (j : Fin ny) : ℝ :=
  d.lattice.1.1 * linspaceAt (-0.5) 0.5 nx i + d.lattice.2.1 * linspaceAt (-0.5) 0.5 ny j

/-- `self.Y[i, j]`, `draw.py:30-35`. -/
noncomputable def Y (d : Drawing nx ny) (i : Fin nx) (j : Fin ny) : ℝ :=
  d.lattice.1.2 * linspaceAt (-0.5) 0.5 nx i + d.lattice.2.2 * linspaceAt (-0.5) 0.5 ny j

/-- `self._canvas[mask] = epsilon`: converting a Python `complex` to the `dtype` of a real array raises
`TypeError`, whatever the mask. -/
noncomputable def paint (d : Drawing nx ny) (mask : Fin nx → Fin ny → Prop) (eps : PyNum) : Py (Drawing nx ny) := do
  pyCheck (eps.isComplex = true → d.cplx = true) .type
  return { d with canvas := fun i j => open Classical in if mask i j then eps.val else d.canvas i j }

/-- `self.geometric_description.append(…)`. -/
def record (d : Drawing nx ny) (s : Shape) (eps : PyNum) : Drawing nx ny :=
  { d with islands := d.islands ++ [⟨s, eps.val⟩] }

/-- `disc(xy, radius, epsilon)`, `draw.py:41-44`. -/
noncomputable def disc (d : Drawing nx ny) (xy : R2) (radius : ℝ) (eps : PyNum) : Py (Drawing nx ny) := do
  let d ← d.paint (fun i j => Real.sqrt ((d.X i j - xy.1) ^ 2 + (d.Y i j - xy.2) ^ 2) < radius) eps
  return d.record (.disc (0.5 + xy.1) (0.5 + xy.2) radius) eps

/-- `rectangle(xy, wh, epsilon)`, `draw.py:46-55`. -/
noncomputable def rectangle (d : Drawing nx ny) (xy wh : R2) (eps : PyNum) : Py (Drawing nx ny) := do
  let x := xy.1 - wh.1 / 2
  let y := xy.2 - wh.2 / 2
  let d ← d.paint (fun i j => (d.X i j ≥ x ∧ d.X i j ≤ x + wh.1) ∧ (d.Y i j ≥ y ∧ d.Y i j ≤ y + wh.2)) eps
  return d.record (.rectangle (0.5 + x) (0.5 + y) (0.5 + x + wh.1) (0.5 + y + wh.2)) eps

/-- `ellipse(xy, ab, r_rad, epsilon)`, `draw.py:57-67`; `1/a**2` raises `ZeroDivisionError` for a null axis.
`np.arctan2(v, u)` is the argument of `u + i v`. -/
noncomputable def ellipse (d : Drawing nx ny) (xy ab : R2) (r : ℝ) (eps : PyNum) : Py (Drawing nx ny) := do
  pyCheck (ab.1 ≠ 0 ∧ ab.2 ≠ 0) .nonFinite
  let A := Real.cos r ^ 2 / ab.1 ^ 2 + Real.sin r ^ 2 / ab.2 ^ 2
  let B := Real.cos r ^ 2 / ab.2 ^ 2 + Real.sin r ^ 2 / ab.1 ^ 2
  let C := 2 * Real.cos r * Real.sin r * (1 / ab.1 ^ 2 - 1 / ab.2 ^ 2)
  let dsqr := fun i j => (d.X i j - xy.1) ^ 2 + (d.Y i j - xy.2) ^ 2
  let theta := fun i j => Complex.arg ⟨d.X i j - xy.1, d.Y i j - xy.2⟩
  let irsqr := fun i j => A * Real.cos (theta i j) ^ 2 + B * Real.sin (theta i j) ^ 2 +
    C * Real.sin (theta i j) * Real.cos (theta i j)
  let d ← d.paint (fun i j => dsqr i j < 1 / irsqr i j) eps
  return d.record (.ellipse xy.1 xy.2 ab.1 ab.2 r) eps

/-- The loop of `parallelogram`, `draw.py:78-86`, over the columns `i` that remain: `continue`, `break`, or
paint a part of the column. -/
noncomputable def parallelogramLoop (x y b h t : ℝ) (eps : PyNum) : List (Fin ny) → Drawing nx ny → Py (Drawing nx ny)
  | [], d => .ok d
  | i :: rest, d =>
    open Classical in
    if ∀ k, d.Y k i ≤ y then parallelogramLoop x y b h t eps rest d
    else if ∀ k, d.Y k i - y ≥ h then .ok d
    else if h0 : 0 < nx then do
      let start := x - b / 2 + t * d.Y ⟨0, h0⟩ i
      let stop := start + b
      let d ← d.paint (fun k j => j = i ∧ d.X k i > start ∧ d.X k i ≤ stop) eps
      parallelogramLoop x y b h t eps rest d
    else .error .index

/-- `parallelogram(xy, bh, tilt_rad, epsilon)`, `draw.py:69-86`.  It is not recorded among the islands. -/
noncomputable def parallelogram (d : Drawing nx ny) (xy bh : R2) (tilt : ℝ) (eps : PyNum) : Py (Drawing nx ny) := do
  pyCheck (Real.cos tilt ≠ 0) .nonFinite
  parallelogramLoop xy.1 (xy.2 - bh.2 / 2) bh.1 bh.2 (Real.tan tilt) eps (List.finRange ny) d

/-! ### `from_numpy` -/

/-- `l.index(x)`: `ValueError` when absent. -/
noncomputable def pyIndexOf (l : List ℝ) (p : ℝ → Prop) : Py ℕ :=
  open Classical in
  match l.findIdx? p with
  | some i => .ok i
  | none => .error .value

/-- `np.unique(X).tolist()`: the distinct values in increasing order. -/
noncomputable def npUnique (l : List ℝ) : List ℝ := l.toFinset.sort

/-- The variables of the loop `draw.py:160-174`. -/
structure RunState where
  current : ℕ
  previous : ℕ
  start : ℕ
  intervals : List (ℕ × ℕ × ℝ) := []

/-- One iteration of the loop `draw.py:165-174`; `p` is `(X[i], i)`. -/
noncomputable def runStep (materials : List ℝ) (bg : ℕ) (st : RunState) (p : ℝ × ℕ) : Py RunState := do
  let current ← pyIndexOf materials (· = p.1)
  if current ≠ st.previous then
    if st.previous ≠ bg then
      let v ← pyGet materials st.previous
      return ⟨current, current, p.2, st.intervals ++ [(st.start, p.2, v)]⟩
    else
      return ⟨current, current, p.2, st.intervals⟩
  else
    return { st with current := current }

/-- The intervals of `from_numpy`, `draw.py:160-177`: `(first pixel, one past the last, material)`. -/
noncomputable def materialIntervals (materials xs : List ℝ) (background : PyNum) : Py (List (ℕ × ℕ × ℝ)) := do
  let x0 ← pyGet xs 0
  let current ← pyIndexOf materials (· = x0)
  let bg ← pyIndexOf materials fun m => ((m : ℝ) : ℂ) = background.val
  let st ← (xs.zipIdx.drop 1).foldlM (runStep materials bg) ⟨current, current, 0, []⟩
  if st.current ≠ bg then
    let v ← pyGet materials st.current
    return st.intervals ++ [(st.start, xs.length, v)]
  else
    return st.intervals

/-- One call `self.rectangle((c, 0), (w, 1), e)` of the last loop of `from_numpy`, `draw.py:179-185`. -/
noncomputable def intervalRectangle (length : ℕ) (d : Drawing nx ny) (iv : ℕ × ℕ × ℝ) : Py (Drawing nx ny) :=
  let b0 : ℝ := ((iv.1 : ℝ) - (length : ℝ) / 2) / length
  let b1 : ℝ := ((iv.2.1 : ℝ) - (length : ℝ) / 2) / length
  d.rectangle ((b1 + b0) / 2, 0) (b1 - b0, 1) (.float iv.2.2)

/-- `from_numpy(X)`, `draw.py:142-185`, for an array of real numbers: `shape` is `X.shape`, `xs` is
`X.flatten()`. -/
noncomputable def fromNumpy (d : Drawing nx ny) (shape : List ℕ) (xs : List ℝ) : Py (Drawing nx ny) := do
  pyCheck (¬(1 < shape.length ∧ 1 < shape.getD 0 0 ∧ 1 < shape.getD 1 0)) .notImplemented
  let materials := npUnique xs
  if materials.length = 1 then
    return { d with background := .float (materials.getD 0 0) }
  else
    let ivs ← materialIntervals materials xs d.background
    pyCheck (ivs ≠ []) .index
    ivs.foldlM (intervalRectangle xs.length) d

end Drawing

/-! ### Arrays and lists handed out: object references -/

/-- The arrays and lists alive, by reference. -/
structure DrawMem (nx ny : ℕ) where
  arrays : List (Fin nx → Fin ny → ℂ)
  lists : List (List Island)

/-- A `Drawing` object as Python stores it: `_canvas` and `geometric_description` are references. -/
structure DrawObj where
  lattice : R2 × R2
  background : PyNum
  cplx : Bool
  canvasRef : ℕ
  listRef : ℕ

namespace DrawObj
variable {nx ny : ℕ}

/-- `Drawing.__init__`: a new array and a new list. -/
def store (m : DrawMem nx ny) (d : Drawing nx ny) : DrawMem nx ny × DrawObj :=
  (⟨m.arrays ++ [d.canvas], m.lists ++ [d.islands]⟩,
   ⟨d.lattice, d.background, d.cplx, m.arrays.length, m.lists.length⟩)

/-- The state of the object. -/
def load (m : DrawMem nx ny) (o : DrawObj) : Py (Drawing nx ny) := do
  let a ← pyGet m.arrays o.canvasRef
  let l ← pyGet m.lists o.listRef
  return ⟨o.lattice, o.background, o.cplx, a, l⟩

/-- A drawing method: `_canvas[…] = …` and `geometric_description.append(…)` change the array and the list in
place. -/
def call (m : DrawMem nx ny) (o : DrawObj) (f : Drawing nx ny → Py (Drawing nx ny)) : Py (DrawMem nx ny × DrawObj) := do
  let d ← o.load m
  let d' ← f d
  return (⟨m.arrays.set o.canvasRef d'.canvas, m.lists.set o.listRef d'.islands⟩,
    { o with background := d'.background })

/-- `canvas()`, `draw.py:90-95`: `self._canvas.copy()`, a new array; its reference. -/
def canvas (m : DrawMem nx ny) (o : DrawObj) : Py (DrawMem nx ny × ℕ) := do
  let a ← pyGet m.arrays o.canvasRef
  return (⟨m.arrays ++ [a], m.lists⟩, m.arrays.length)

/-- `islands()`, `draw.py:108-109`: the list itself. -/
def islandsRef (o : DrawObj) : ℕ := o.listRef

end DrawObj

end Khepri
