import Verif.Model.Builder
import Verif.Model.Draw

/-!
# `khepri/factory.py`
-/

namespace Khepri

/-- `a.T` of a two-dimensional array. -/
def Arr2.transpose (a : Arr2) : Arr2 := ⟨a.ny, a.nx, fun i j => a.val j i⟩

/-- `canvas()` without arguments, `draw.py:90-95`. -/
def Drawing.pixels {nx ny : ℕ} (d : Drawing nx ny) : Arr2 := ⟨nx, ny, d.canvas⟩

/-- `make_woodpile(rods_w, rods_eps, rods_shift, rods_height, pw, resolution)`, `factory.py:3-24`; `tag` is the
identity of the new `Expansion` object; the defaults of `Crystal(pw)` are those of `crystal.py:42-43`. -/
noncomputable def makeWoodpile (tag : ℕ) (w : ℝ) (eps : PyNum) (shift height : ℝ) (pw : ℕ × ℕ) (resolution : ℕ × ℕ) :
    Py (Crystal (pw.1 * pw.2)) := do
  let pattern ← Drawing.make resolution.1 resolution.2 (.float 1) none
  let pattern ← pattern.rectangle (0, 0) (1, w) eps
  let pattern2 ← Drawing.make resolution.1 resolution.2 (.float 1) none
  let pattern2 ← pattern2.rectangle (0, shift) (1, w) eps
  let pattern2 ← pattern2.rectangle (0, -shift) (1, w) eps
  let cl ← Crystal.create tag pw (.name "square") 1 false 1 1
  let cl ← cl.add (.pixmap "A" pattern.pixels height)
  let cl ← cl.add (.pixmap "B" pattern.pixels.transpose height)
  let cl ← cl.add (.pixmap "C" pattern2.pixels height)
  let cl ← cl.add (.pixmap "D" pattern2.pixels.transpose height)
  let device := ["A", "B", "C", "D"]
  cl.setDevice device (.inr (List.replicate device.length false))

end Khepri
