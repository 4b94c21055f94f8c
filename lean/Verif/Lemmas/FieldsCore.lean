import Verif.Lemmas.Positions
import Verif.Props.Cascade

set_option linter.unusedSectionVars false

/-!
`_fourier_fields` in terms of modes.
-/

namespace Khepri

open Matrix

variable {N : ℕ}

theorem npSolveVec_iff {n : Type} [Fintype n] [DecidableEq n] {A : Matrix n n ℂ} {b x : n → ℂ} :
    npSolveVec A b = .ok x ↔ A.det ≠ 0 ∧ A *ᵥ x = b := by
  rw [npSolveVec_eq_ok]
  exact and_congr_right fun h => (mulVec_eq_iff h).symm

theorem layerEigenbasis_det {n : Type} [Fintype n] [DecidableEq n] {W V : Matrix n n ℂ} (hW : W.det ≠ 0)
    (hV : V.det ≠ 0) : (layerEigenbasis W V).det ≠ 0 :=
  ((Matrix.isUnit_iff_isUnit_det _).1 (modeMat_isUnit hW hV)).ne_zero

theorem layerEigenbasis_mulVec {n : Type} [Fintype n] [DecidableEq n] (W V : Matrix n n ℂ) (p : Port n) :
    layerEigenbasis W V *ᵥ Sum.elim p.fwd p.bwd = Sum.elim (fieldOf W V p).E (fieldOf W V p).H :=
  modeMat_mulVec W V p

theorem fourierFieldsFromModes_ok {n : Type} [Fintype n] [DecidableEq n] {W V W0 V0 : Matrix n n ℂ}
    {L cp cm : n → ℂ} {zbar : ℝ} {B : Port n} (hW : W.det ≠ 0) (hV : V.det ≠ 0)
    (hB : fieldOf W V B = fieldOf W0 V0 ⟨cp, cm⟩) :
    let F := fieldOf W V ⟨fun i => clampPhasor (Complex.exp (L i * zbar)) * B.fwd i,
      fun i => clampPhasor (Complex.exp (-(L i * zbar))) * B.bwd i⟩
    fourierFieldsFromModes (layerEigenbasis W V) L (layerEigenbasis W0 V0) cp cm zbar =
      .ok (Sum.elim F.E F.H) := by
  intro F
  unfold fourierFieldsFromModes
  have h : npSolveVec (layerEigenbasis W V) (layerEigenbasis W0 V0 *ᵥ Sum.elim cp cm) =
      .ok (Sum.elim B.fwd B.bwd) := by
    rw [npSolveVec_iff]
    refine ⟨layerEigenbasis_det hW hV, ?_⟩
    rw [layerEigenbasis_mulVec, hB]
    exact (layerEigenbasis_mulVec W0 V0 ⟨cp, cm⟩).symm
  simp only [h, ok_bind, pure, Except.pure, Except.ok.injEq]
  rw [← layerEigenbasis_mulVec]
  congr 1
  funext i
  rcases i with i | i <;> rfl

/-- A solved layer that keeps the modes `L` and can be asked for its fields. -/
structure Kept (kx ky : Fin N → ℂ) (W0 V0 : Mat2 N) (a : AnyLayer N) (L : LayerIn (Fin N ⊕ Fin N)) (ic : ICVal N) :
    Prop where
  flag : a.fields = true
  lam : a.L = some L.lam
  modeW : a.W = some L.W
  modeV : a.V = some L.V
  thick : a.depth = L.depth
  gap : Crystal.gapModes a kx ky = .ok (W0, V0)
  inv : a.IC = some ic

/-- `_fourier_fields` at a located depth, whatever the kind of layer. -/
theorem fourierFields_kept {c : Crystal N} {z : ℝ} {E H : Vec2 N} {A : AnyLayer N} {L : LayerIn (Fin N ⊕ Fin N)}
    {ic : ICVal N} {lr : Layer N} {rr : Solved N} {j : ℕ}
    {zr : ℝ} {src : Source} {kx ky kz : Fin N → ℂ} {W0 V0 : Mat2 N} {st : Stacked (Fin N ⊕ Fin N)}
    {Sl Sr : SMat (Fin N ⊕ Fin N)} {a b : Vec2 N} {x : Vec2 N × Vec2 N} {B : Port (Fin N ⊕ Fin N)}
    (hloc : c.locateLayer z = .ok (A, (j : ℤ), (zr : EReal))) (hA : Kept kx ky W0 V0 A L ic)
    (hsrc : c.source = some src) (hk : c.expansion.kVectors src.kp src.wavelength 1 = .ok (kx, ky, kz))
    (href : c.layers "Sref" = some (.plain (lr.store rr))) (hrf : lr.fields = true)
    (hst : c.stacked = some st) (hl : st.Sls[j]? = some (some Sl)) (hr : st.Srs[j]? = some (some Sr))
    (hWr : rr.W.det ≠ 0) (hVr : rr.V.det ≠ 0) (hW : L.W.det ≠ 0) (hV : L.V.det ≠ 0)
    (hab : fieldOf rr.W rr.V ⟨a, b⟩ = ⟨E, H⟩) (hx : translateModeAmplitudes Sl Sr a = .ok x)
    (hB : fieldOf L.W L.V B = fieldOf W0 V0 ⟨x.1, x.2⟩) :
    ∃ f, c.fourierFields z E H = .ok f ∧
      f.transverse = fieldOf L.W L.V
        ⟨fun i => clampPhasor (Complex.exp (L.lam i * ((2 * Real.pi / src.wavelength * (L.depth - zr) : ℝ) : ℂ))) *
          B.fwd i,
         fun i => clampPhasor (Complex.exp (-(L.lam i * ((2 * Real.pi / src.wavelength * (L.depth - zr) : ℝ) : ℂ)))) *
          B.bwd i⟩ ∧
      (f.sz, f.uz) = longitudinalFields f.sx f.sy f.ux f.uy kx ky ic := by
  have get : ∀ {α : Type} {a : List α} {k : ℕ} {v : α}, a[k]? = some v → pyGetZ a (k : ℤ) = .ok v := by
    intro α a k v h
    obtain ⟨h', rfl⟩ := List.getElem?_eq_some_iff.1 h
    exact pyGetZ_nat h'
  have hsol : npSolveVec (layerEigenbasis rr.W rr.V) (Sum.elim E H) = .ok (Sum.elim a b) := by
    rw [npSolveVec_iff]
    refine ⟨layerEigenbasis_det hWr hVr, ?_⟩
    have := layerEigenbasis_mulVec rr.W rr.V ⟨a, b⟩
    rw [this, hab]
  have hff := fourierFieldsFromModes_ok (L := L.lam)
    (zbar := 2 * Real.pi / src.wavelength * (L.depth - zr)) hW hV hB
  simp only at hff
  have hfin : Crystal.finite ((zr : ℝ) : EReal) = .ok zr := by simp [Crystal.finite]
  set F := fieldOf L.W L.V
        ⟨fun i => clampPhasor (Complex.exp (L.lam i * ((2 * Real.pi / src.wavelength * (L.depth - zr) : ℝ) : ℂ))) *
          B.fwd i,
         fun i => clampPhasor (Complex.exp (-(L.lam i * ((2 * Real.pi / src.wavelength * (L.depth - zr) : ℝ) : ℂ)))) *
          B.bwd i⟩ with hF
  let lz := longitudinalFields (fun i => F.E (.inl i)) (fun i => F.E (.inr i)) (fun i => F.H (.inl i))
    (fun i => F.H (.inr i)) kx ky ic
  refine ⟨⟨fun i => F.E (.inl i), fun i => F.E (.inr i), lz.1, fun i => F.H (.inl i), fun i => F.H (.inr i),
    lz.2⟩, ?_, ?_, rfl⟩
  · unfold Crystal.fourierFields
    have href' : AnyLayer.W (.plain (lr.store rr)) = some rr.W ∧ AnyLayer.V (.plain (lr.store rr)) = some rr.V := by
      simp [AnyLayer.W, AnyLayer.V, Layer.store, hrf]
    simp only [hloc, ok_bind, hA.flag, hA.lam, hA.modeW, hA.modeV, hA.thick, hA.gap, hA.inv,
      pySome, Crystal.attr, hsrc, hk,
      Crystal.layer_eq_ok.2 href, href'.1, href'.2, hsol, hst, get hl, get hr, Sum.elim_inl, hx, hfin]
    rw [pyCheck_ok trivial]
    simp only [ok_bind]
    rw [hff]
    rfl
  · apply Tang.ext
    · funext i; rcases i with i | i <;> rfl
    · funext i; rcases i with i | i <;> rfl

theorem kept_plain {l : Layer N} {r : Solved N} {kx ky : Fin N → ℂ} {W0 V0 : Mat2 N} (hf : l.fields = true)
    (hgap : freeSpaceEigenmodes kx ky = .ok (W0, V0)) :
    Kept kx ky W0 V0 (.plain (l.store r)) ⟨r.W, r.V, r.L, l.depth⟩ r.IC := by
  constructor <;>
    simp [AnyLayer.fields, AnyLayer.L, AnyLayer.W, AnyLayer.V, AnyLayer.depth, AnyLayer.IC, Layer.store, hf,
      Crystal.gapModes, hgap]

/-- `_fourier_fields` at a located depth. -/
theorem fourierFields_ok {c : Crystal N} {z : ℝ} {E H : Vec2 N} {l lr : Layer N} {r rr : Solved N} {j : ℕ}
    {zr : ℝ} {src : Source} {kx ky kz : Fin N → ℂ} {W0 V0 : Mat2 N} {st : Stacked (Fin N ⊕ Fin N)}
    {Sl Sr : SMat (Fin N ⊕ Fin N)} {a b : Vec2 N} {x : Vec2 N × Vec2 N} {B : Port (Fin N ⊕ Fin N)}
    (hloc : c.locateLayer z = .ok (.plain (l.store r), (j : ℤ), (zr : EReal))) (hf : l.fields = true)
    (hsrc : c.source = some src) (hk : c.expansion.kVectors src.kp src.wavelength 1 = .ok (kx, ky, kz))
    (hgap : freeSpaceEigenmodes kx ky = .ok (W0, V0))
    (href : c.layers "Sref" = some (.plain (lr.store rr))) (hrf : lr.fields = true)
    (hst : c.stacked = some st) (hl : st.Sls[j]? = some (some Sl)) (hr : st.Srs[j]? = some (some Sr))
    (hWr : rr.W.det ≠ 0) (hVr : rr.V.det ≠ 0) (hW : r.W.det ≠ 0) (hV : r.V.det ≠ 0)
    (hab : fieldOf rr.W rr.V ⟨a, b⟩ = ⟨E, H⟩) (hx : translateModeAmplitudes Sl Sr a = .ok x)
    (hB : fieldOf r.W r.V B = fieldOf W0 V0 ⟨x.1, x.2⟩) :
    ∃ f, c.fourierFields z E H = .ok f ∧
      f.transverse = fieldOf r.W r.V
        ⟨fun i => clampPhasor (Complex.exp (r.L i * ((2 * Real.pi / src.wavelength * (l.depth - zr) : ℝ) : ℂ))) *
          B.fwd i,
         fun i => clampPhasor (Complex.exp (-(r.L i * ((2 * Real.pi / src.wavelength * (l.depth - zr) : ℝ) : ℂ)))) *
          B.bwd i⟩ ∧
      (f.sz, f.uz) = longitudinalFields f.sx f.sy f.ux f.uy kx ky r.IC :=
  fourierFields_kept hloc (kept_plain hf hgap) hsrc hk href hrf hst hl hr hWr hVr hW hV hab hx hB

end Khepri
