import Verif.Model.Crystal

/-!
# Building crystals: the constructors of `khepri/crystal.py` and the `add_*` methods
-/

namespace Khepri

/-- The argument `lattice` of `Crystal`: a name or two vectors. -/
inductive LatticeArg
  | name (s : String)
  | vectors (l : R2 × R2)

/-- The choice of the lattice vectors, `crystal.py:60-75` (the rows of the array are used as lattice vectors, by
`Expansion`). -/
noncomputable def latticeVectors (pitch : ℝ) : LatticeArg → Py (R2 × R2)
  | .name s =>
    if s = "square" then .ok ((pitch * 1, pitch * 0), (pitch * 0, pitch * 1))
    else if s = "hexagonal" then
      .ok ((pitch * (Real.sqrt 3 / 2), pitch * (1 / 2)), (pitch * (Real.sqrt 3 / 2), pitch * (-1 / 2)))
    else .error .notImplemented
  | .vectors l => .ok l

namespace Crystal

/-- `Crystal(pw, lattice, lattice_pitch, void, epsi, epse)`, `crystal.py:42-81`; `tag` is the identity of the new
`Expansion` object. -/
noncomputable def create (tag : ℕ) (pw : ℕ × ℕ) (lattice : LatticeArg) (pitch : ℝ) (void : Bool) (epsi epse : ℂ) :
    Py (Crystal (pw.1 * pw.2)) := do
  let lat ← latticeVectors pitch lattice
  let e ← Expansion.make tag pw lat
  return { expansion := e, void := void, epsi := epsi, epse := epse }

/-- `Multilayer(epsi, epse)`, `crystal.py:404-406`. -/
noncomputable def multilayer (tag : ℕ) (epsi epse : ℂ) : Py (Crystal (1 * 1)) :=
  create tag (1, 1) (.name "square") 1 false epsi epse

/-- `Crystal.from_expansion(expansion, **kwargs)`, `crystal.py:83-95`: a crystal with as many orders is built, then its
expansion is replaced. -/
noncomputable def fromExpansion {N : ℕ} (tag : ℕ) (e : Expansion N) (lattice : LatticeArg) (pitch : ℝ) (void : Bool)
    (epsi epse : ℂ) : Py (Crystal N) := do
  let _ ← create tag e.pw lattice pitch void epsi epse
  return { expansion := e, void := void, epsi := epsi, epse := epse }

/-- A call that adds a layer. -/
inductive Add
  | uniform (name : String) (eps : ℂ) (depth : ℝ)
  | pixmap (name : String) (p : Arr2) (depth : ℝ)
  | pixmapOrUniform (name : String) (p : Arr2) (depth : ℝ)
  | analytical (name : String) (islands : List Island) (host : ℂ) (depth : ℝ)

/-- `add_layer_uniform`, `add_layer_pixmap`, `add_pixmap_or_uniform`, `add_layer_analytical`, `crystal.py:97-123`. -/
noncomputable def add {N : ℕ} (c : Crystal N) : Add → Py (Crystal N)
  | .uniform name eps depth => .ok (c.addLayer name (Layer.uniform c.expansion eps depth))
  | .pixmap name p depth => .ok (c.addLayer name (Layer.pixmap c.expansion p depth))
  | .pixmapOrUniform name p depth => do
    let l ← Layer.pixmapOrUniform c.expansion p depth
    return c.addLayer name l
  | .analytical name islands host depth => .ok (c.addLayer name (Layer.analytical c.expansion islands host depth))

/-- A sequence of such calls. -/
noncomputable def addAll {N : ℕ} (c : Crystal N) (l : List Add) : Py (Crystal N) := l.foldlM add c

/-- `source_defined`, `crystal.py:172-174`. -/
def sourceDefined {N : ℕ} (c : Crystal N) : Bool := c.source.isSome

/-- `solved`, `crystal.py:176-178` (`S` is set together with the other matrices). -/
def solved {N : ℕ} (c : Crystal N) : Bool := c.stacked.isSome

end Crystal

end Khepri
