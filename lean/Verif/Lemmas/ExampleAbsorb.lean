import Verif.Lemmas.AbsorbDevice
import Verif.Lemmas.ExampleRun
import Verif.Lemmas.ExampleEmpty

/-! An absorbing device: a pixmap of two media and a plate, between glass and vacuum. -/

set_option linter.unusedSectionVars false

namespace Khepri

open Matrix

/-- With one order the eigensolver of the examples solves every absorbing layer. -/
theorem lib_diagonalised (jv1 : ℝ → ℝ) {e : Expansion 1} {f : Form} (h : f.strictlyAbsorbing jv1 e)
    (kx ky : Fin 1 → ℝ) : f.diagonalised { exampleLib with jv1 := jv1 } e kx ky := by
  have key : ∀ C, Permittivity jv1 e f C → ∃ r,
      exampleLib.eig 1 (maxwellP (fun i => (kx i : ℂ)) (fun i => (ky i : ℂ)) C *
        maxwellQ (fun i => (kx i : ℂ)) (fun i => (ky i : ℂ)) C) = .ok r ∧ r.2.det ≠ 0 := by
    intro C hC
    have hdet := (strict_perm one_pos h hC).det
    obtain ⟨z, rfl⟩ : ∃ z : ℂ, C = z • 1 := ⟨C 0 0, by ext i j; fin_cases i; fin_cases j; simp⟩
    have hz : z ≠ 0 := by rintro rfl; simp at hdet
    have hP := (structuredP_eq_ok.1 (structuredP_uniform (fun i => (kx i : ℂ)) (fun i => (ky i : ℂ)) hz)).2
    have hx : ∃ p : (Fin 1 ⊕ Fin 1 → ℂ) × Matrix (Fin 1 ⊕ Fin 1) (Fin 1 ⊕ Fin 1) ℂ,
        (maxwellP (fun i => (kx i : ℂ)) (fun i => (ky i : ℂ)) (z • 1) *
        maxwellQ (fun i => (kx i : ℂ)) (fun i => (ky i : ℂ)) (z • 1)) * p.2 = p.2 * diagonal p.1 ∧ p.2.det ≠ 0 := by
      refine ⟨((1 / z) • (stack2 fun i => -(z * (z - (kx i : ℂ) ^ 2 - (ky i : ℂ) ^ 2))), 1), ?_, by simp⟩
      rw [← hP, Matrix.mul_one, Matrix.one_mul,
        show maxwellQ (fun i => (kx i : ℂ)) (fun i => (ky i : ℂ)) (z • 1) =
          qBlock (fun i => (kx i : ℂ)) (fun i => (ky i : ℂ)) z from rfl, Matrix.smul_mul, qBlock_sq, diagonal_smul]
    refine ⟨hx.choose, ?_, hx.choose_spec.2⟩
    simp only [exampleLib]
    rw [dif_pos hx]
  cases f <;> first | exact trivial | exact key

theorem example_diagonalised {e : Expansion 1} {f : Form} (h : f.strictlyAbsorbing exampleLib.jv1 e)
    (kx ky : Fin 1 → ℝ) : f.diagonalised exampleLib e kx ky := lib_diagonalised exampleLib.jv1 h kx ky

/-- A pixmap of two absorbing media. -/
noncomputable def absorbPix : Arr2 := ⟨2, 1, fun x _ => if x = 0 then 4 - Complex.I else 2 - 3 * Complex.I⟩

/-- Glass, the pixmap, an absorbing plate, vacuum. -/
noncomputable def absorbCrystal : Crystal 1 :=
  { expansion := exampleExpansion
    epsi := ((9 / 4 : ℝ) : ℂ)
    epse := ((1 : ℝ) : ℂ)
    layers := fun x =>
      if x = "a" then some (.plain { expansion := exampleExpansion, form := .fft absorbPix, depth := 1 / 2 })
      else if x = "b" then some (.plain { expansion := exampleExpansion, form := .uniform (4 - Complex.I), depth := 1 })
      else none }

noncomputable def absorbLayers : List (Layer 1) :=
  [{ expansion := exampleExpansion, form := .fft absorbPix, depth := 1 / 2 },
    { expansion := exampleExpansion, form := .uniform (4 - Complex.I), depth := 1 }]

theorem absorb_fresh (b : Bool) :
    FreshDevice absorbCrystal ["a", "b"] (.inl b) absorbLayers ((9 / 4 : ℝ) : ℂ) ((1 : ℝ) : ℂ) where
  void := rfl
  epsi := rfl
  epse := rfl
  noRef := by simp [absorbCrystal]
  noTrans := by simp [absorbCrystal]
  layers := .cons ⟨by simp [absorbCrystal], trivial, rfl⟩ (.cons ⟨by simp [absorbCrystal], trivial, rfl⟩ .nil)
  mask := by simp

theorem absorb_strict : ∀ l ∈ absorbLayers, 0 < l.depth ∧ l.form.strictlyAbsorbing exampleLib.jv1 exampleExpansion := by
  intro l hl
  simp only [absorbLayers, List.mem_cons, List.not_mem_nil, or_false] at hl
  rcases hl with rfl | rfl
  · refine ⟨by norm_num, by simp [exampleExpansion, absorbPix], by simp [exampleExpansion, absorbPix], fun x y => ?_⟩
    simp only [absorbPix]
    split_ifs <;> simp
  · exact ⟨one_pos, by simp [Form.strictlyAbsorbing]⟩

/-- The plane wave vector of the example, given explicitly. -/
noncomputable def absorbKp : ℝ × ℝ := (2 * Real.pi * (1 / 2), 0)

theorem absorb_source (te tm : ℂ) (b : Bool) : ∃ c1 c2 src, absorbCrystal.setDevice ["a", "b"] (.inl b) = .ok c1 ∧
    c1.setSource 1 te tm 0 0 (some ((absorbKp.1 : ℂ), (absorbKp.2 : ℂ))) = .ok c2 ∧
    c2.source = some src ∧ src.kp = ((absorbKp.1 : ℂ), (absorbKp.2 : ℂ)) := by
  have hfr := absorb_fresh b
  obtain ⟨c1, h1, hd, hexp, -, hi, hie⟩ := Crystal.setDevice_standard (m := .inl b) hfr.void hfr.noRef
    hfr.noTrans hfr.layers (by simp [Crystal.maskList])
  exact ⟨c1, _, _, h1, Crystal.setSource_eq_ok.2 ⟨one_ne_zero, _, rfl, rfl⟩, rfl, rfl⟩

theorem absorb_order : SetOrder ("Sref" :: (["a", "b"] ++ ["Strans"])) ["Sref", "a", "b", "Strans"] :=
  ⟨by decide, fun x => by simp⟩

theorem absorb_grazing {a : ℝ} (ha : 1 / 4 < a) (i : Fin 1) :
    a - orderKx exampleExpansion absorbKp 1 i ^ 2 - orderKy exampleExpansion absorbKp 1 i ^ 2 ≠ 0 := by
  rw [absorbKp, oblique_kx, oblique_ky]
  norm_num
  linarith

end Khepri
