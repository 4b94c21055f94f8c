import Verif.Lemmas.TmatUV

/-!
Orders of a T-matrix lattice: their number, their wave vectors and their places.
-/

set_option linter.unusedSectionVars false

namespace Khepri

open Matrix Complex

theorem gridSize_eq (pw : ℕ × ℕ) (h : pw.1 % 2 = pw.2 % 2) : gridSize pw =
    .ok ((pw.1 / 2, pw.2 / 2), (4 * (pw.1 / 2) + pw.1 % 2, 4 * (pw.2 / 2) + pw.2 % 2)) := by
  rw [gridSize, pyCheck_ok h, ok_bind]
  show Except.ok _ = Except.ok _
  congr 1
  split_ifs with h0
  · rw [← h, h0]; rfl
  · have e1 : (pw.1 - 1) / 2 = pw.1 / 2 := by omega
    have e2 : (pw.2 - 1) / 2 = pw.2 / 2 := by omega
    have e3 : pw.1 % 2 = 1 := by omega
    rw [e1, e2, ← h, e3]

theorem gridCenter_eq (s : ℕ × ℕ) (h : s.1 % 2 = s.2 % 2) : gridCenter s = .ok (s.1 / 2, s.2 / 2) := by
  rw [gridCenter, pyCheck_ok h, ok_bind]
  show Except.ok _ = Except.ok _
  congr 1
  split_ifs with h0
  · rfl
  · have e1 : (s.1 - 1) / 2 = s.1 / 2 := by omega
    have e2 : (s.2 - 1) / 2 = s.2 / 2 := by omega
    rw [e1, e2]

theorem TLattice.make_eq {pw : ℕ × ℕ} {a1 a2 : R2} (ei ee : PyNum) {b : R2 × R2} (hb : reciproc a1 a2 = .ok b)
    (h : pw.1 % 2 = pw.2 % 2) : TLattice.make pw a1 a2 ei ee =
      .ok { pw := pw, q := (4 * (pw.1 / 2) + pw.1 % 2, 4 * (pw.2 / 2) + pw.2 % 2), b := b,
            area := unitCellArea a1 a2, epsI := ei, epsE := ee,
            Gx := fun i j => b.1.1 * ((i : ℝ) - (2 * (pw.1 / 2) : ℕ)) + b.2.1 * ((j : ℝ) - (2 * (pw.2 / 2) : ℕ)),
            Gy := fun i j => b.1.2 * ((i : ℝ) - (2 * (pw.1 / 2) : ℕ)) + b.2.2 * ((j : ℝ) - (2 * (pw.2 / 2) : ℕ)) } := by
  have e1 : (4 * (pw.1 / 2) + pw.1 % 2) / 2 = 2 * (pw.1 / 2) := by omega
  have e2 : (4 * (pw.2 / 2) + pw.2 % 2) / 2 = 2 * (pw.2 / 2) := by omega
  rw [TLattice.make, hb, ok_bind, gridSize_eq _ h, ok_bind]
  simp only
  rw [gridCenter_eq _ (by simp only; omega), ok_bind]
  simp only [e1, e2]
  rfl

theorem TLattice.make_eq_ok {pw : ℕ × ℕ} {a1 a2 : R2} {ei ee : PyNum} {l : TLattice}
    (hl : TLattice.make pw a1 a2 ei ee = .ok l) : pw.1 % 2 = pw.2 % 2 ∧ ∃ b, reciproc a1 a2 = .ok b ∧
      l = { pw := pw, q := (4 * (pw.1 / 2) + pw.1 % 2, 4 * (pw.2 / 2) + pw.2 % 2), b := b,
            area := unitCellArea a1 a2, epsI := ei, epsE := ee,
            Gx := fun i j => b.1.1 * ((i : ℝ) - (2 * (pw.1 / 2) : ℕ)) + b.2.1 * ((j : ℝ) - (2 * (pw.2 / 2) : ℕ)),
            Gy := fun i j => b.1.2 * ((i : ℝ) - (2 * (pw.1 / 2) : ℕ)) + b.2.2 * ((j : ℝ) - (2 * (pw.2 / 2) : ℕ)) } := by
  have hl' := hl
  rw [TLattice.make, bind_eq_ok] at hl
  obtain ⟨b, hb, hl⟩ := hl
  rw [bind_eq_ok] at hl
  obtain ⟨⟨n, q⟩, hg, -⟩ := hl
  have hp : pw.1 % 2 = pw.2 % 2 := by
    rw [gridSize, bind_eq_ok] at hg
    obtain ⟨_, hc, -⟩ := hg
    exact pyCheck_eq_ok.1 hc
  rw [make_eq ei ee hb hp] at hl'
  exact ⟨hp, b, hb, (Except.ok.inj hl').symm⟩

namespace TLattice
variable {pw : ℕ × ℕ} {a1 a2 : R2} {ei ee : PyNum} {l : TLattice}

theorem make_nx (h : TLattice.make pw a1 a2 ei ee = .ok l) : l.nx = pw.1 / 2 ∧ l.ny = pw.2 / 2 := by
  obtain ⟨hp, b, hb, rfl⟩ := make_eq_ok h
  constructor
  · simp only [nx]; split_ifs <;> omega
  · simp only [ny]; split_ifs <;> omega

theorem make_shape (h : TLattice.make pw a1 a2 ei ee = .ok l) :
    l.shape = (pw.1, pySliceLen (4 * (pw.2 / 2) + pw.2 % 2) (pw.2 / 2)
      ((4 * (pw.1 / 2) + pw.1 % 2 : ℕ) - (pw.2 / 2 : ℕ))) := by
  obtain ⟨h1, h2⟩ := make_nx h
  obtain ⟨hp, b, hb, rfl⟩ := make_eq_ok h
  simp only [shape, h1, h2, Prod.mk.injEq, and_true]
  simp only [pySliceLen]
  split_ifs <;> omega

theorem make_shape_iff (h : TLattice.make pw a1 a2 ei ee = .ok l) (h0 : 0 < pw.1) :
    l.shape = pw ↔ pw.1 = pw.2 ∨ pw.2 ≤ 1 := by
  rw [make_shape h]
  obtain ⟨hp, -⟩ := make_eq_ok h
  rw [Prod.ext_iff]
  simp only [true_and, pySliceLen]
  split_ifs <;> omega

theorem make_gx (h : TLattice.make pw a1 a2 ei ee = .ok l) (i j : ℕ) :
    l.gx i j = l.b.1.1 * ((i : ℝ) - (pw.1 / 2 : ℕ)) + l.b.2.1 * ((j : ℝ) - (pw.2 / 2 : ℕ)) ∧
    l.gy i j = l.b.1.2 * ((i : ℝ) - (pw.1 / 2 : ℕ)) + l.b.2.2 * ((j : ℝ) - (pw.2 / 2 : ℕ)) := by
  obtain ⟨h1, h2⟩ := make_nx h
  obtain ⟨hp, b, hb, rfl⟩ := make_eq_ok h
  simp only [gx, gy, h1, h2]
  push_cast
  constructor <;> ring

theorem make_fields (h : TLattice.make pw a1 a2 ei ee = .ok l) :
    l.pw = pw ∧ l.q = (4 * (pw.1 / 2) + pw.1 % 2, 4 * (pw.2 / 2) + pw.2 % 2) ∧ reciproc a1 a2 = .ok l.b ∧
      l.area = unitCellArea a1 a2 ∧ l.epsI = ei ∧ l.epsE = ee := by
  obtain ⟨hp, b, hb, rfl⟩ := make_eq_ok h
  exact ⟨rfl, rfl, hb, rfl, rfl, rfl⟩

theorem make_Gx (h : TLattice.make pw a1 a2 ei ee = .ok l) (i j : ℕ) :
    l.Gx i j = l.b.1.1 * ((i : ℝ) - (2 * (pw.1 / 2) : ℕ)) + l.b.2.1 * ((j : ℝ) - (2 * (pw.2 / 2) : ℕ)) ∧
    l.Gy i j = l.b.1.2 * ((i : ℝ) - (2 * (pw.1 / 2) : ℕ)) + l.b.2.2 * ((j : ℝ) - (2 * (pw.2 / 2) : ℕ)) := by
  obtain ⟨hp, b, hb, rfl⟩ := make_eq_ok h
  exact ⟨rfl, rfl⟩

/-- The order numbers of a place. -/
def ord (l : TLattice) (k : ℕ) : ℤ × ℤ :=
  (((k % l.shape.1 : ℕ) : ℤ) - (l.shape.1 / 2 : ℕ), ((k / l.shape.1 : ℕ) : ℤ) - (l.shape.2 / 2 : ℕ))

/-- The list `indices` of `scattering_matrix`. -/
def indices (l : TLattice) : List (ℤ × ℤ) :=
  (List.range (l.pw.1 * l.pw.2)).map (coordsFromIndex l.pw (l.shape.1 / 2, l.shape.2 / 2))

theorem indices_get (hs : l.shape = l.pw) (k : Fin (l.shape.1 * l.shape.2)) :
    pyGet l.indices k = .ok (l.ord k) := by
  have hk : (k : ℕ) < l.pw.1 * l.pw.2 := by rw [← hs]; exact k.2
  refine pyGet_eq_ok.2 ?_
  simp [indices, hk, coordsFromIndex, ord, hs]

theorem ord_bound (l : TLattice) (k : Fin (l.shape.1 * l.shape.2)) :
    0 ≤ (l.ord k).1 + (l.shape.1 / 2 : ℕ) ∧ (l.ord k).1 + (l.shape.1 / 2 : ℕ) < l.shape.1 ∧
    0 ≤ (l.ord k).2 + (l.shape.2 / 2 : ℕ) ∧ (l.ord k).2 + (l.shape.2 / 2 : ℕ) < l.shape.2 := by
  have h0 : 0 < l.shape.1 := by
    rcases Nat.eq_zero_or_pos l.shape.1 with h | h
    · exact absurd k.2 (by simp [h])
    · exact h
  have h1 := Nat.mod_lt (k : ℕ) h0
  have h2 : (k : ℕ) / l.shape.1 < l.shape.2 := Nat.div_lt_of_lt_mul k.2
  simp only [ord]
  generalize (k : ℕ) % l.shape.1 = x at *
  generalize (k : ℕ) / l.shape.1 = y at *
  refine ⟨by omega, by omega, by omega, by omega⟩

/-- The grid position holding the coefficient for two orders. -/
theorem read_pos (h : TLattice.make pw a1 a2 ei ee = .ok l) (hs : l.shape = pw) (i j : Fin (l.shape.1 * l.shape.2)) :
    ∃ i1 : Fin l.q.1, ∃ i2 : Fin l.q.2,
      npIndex l.q.1 ((l.ord i).1 - (l.ord j).1 + 2 * (l.shape.1 / 2 : ℕ)) = .ok i1 ∧
      npIndex l.q.2 ((l.ord i).2 - (l.ord j).2 + 2 * (l.shape.2 / 2 : ℕ)) = .ok i2 ∧
      ((i1 : ℕ) : ℤ) = (l.ord i).1 - (l.ord j).1 + 2 * (pw.1 / 2 : ℕ) ∧
      ((i2 : ℕ) : ℤ) = (l.ord i).2 - (l.ord j).2 + 2 * (pw.2 / 2 : ℕ) := by
  obtain ⟨-, hq, -⟩ := make_fields h
  have hp := (make_eq_ok h).1
  obtain ⟨a1, a2, a3, a4⟩ := l.ord_bound i
  obtain ⟨b1, b2, b3, b4⟩ := l.ord_bound j
  have e1 : l.shape.1 = pw.1 := by rw [hs]
  have e2 : l.shape.2 = pw.2 := by rw [hs]
  have q1 : l.q.1 = 4 * (pw.1 / 2) + pw.1 % 2 := by rw [hq]
  have q2 : l.q.2 = 4 * (pw.2 / 2) + pw.2 % 2 := by rw [hq]
  refine ⟨⟨((l.ord i).1 - (l.ord j).1 + 2 * (pw.1 / 2 : ℕ)).toNat, by omega⟩,
    ⟨((l.ord i).2 - (l.ord j).2 + 2 * (pw.2 / 2 : ℕ)).toNat, by omega⟩, ?_, ?_, ?_, ?_⟩
  · exact npIndex_eq_ok.2 (.inl (by simp only; omega))
  · exact npIndex_eq_ok.2 (.inl (by simp only; omega))
  · simp only; omega
  · simp only; omega

end TLattice

end Khepri
