import Verif.Lemmas.Mirror
import Verif.Lemmas.ExampleMirror

/-!
# Properties C88, C89: gratings, mirror images and turned devices
-/

namespace Khepri

open Matrix

section
variable {P Q : ℕ} {lib : NumLib} {tag tag' : ℕ} {lat : R2 × R2} {stack stack' : List String}
  {m m' : Bool ⊕ List Bool} {er et wl : ℝ} {te tm te' tm' : ℂ} {theta phi theta' phi' : ℝ}
  {kpo kpo' : Option (ℂ × ℂ)} {kp : R2}

/-! ### C88 -/

/-- **C88.** A stack of gratings with parallel lines, calculated with several orders and any period along the lines,
gives the powers of the calculation with a single order along them: the orders along the lines carry nothing. -/
theorem C88_lines {c c3 : Crystal (P * 1)} {c' c3' : Crystal (P * Q)} {Ls : List (Layer (P * 1))}
    {Ls' : List (Layer (P * Q))} {s t : ℝ} (he : ∀ n, EigContract (lib.eig n))
    (hE : Expansion.make tag (P, 1) lat = .ok c.expansion)
    (hE' : Expansion.make tag' (P, Q) (slidLattice s t lat) = .ok c'.expansion)
    (h : DeviceRun lib c stack m Ls er et wl te tm theta phi kpo kp c3)
    (h' : DeviceRun lib c' stack' m' Ls' er et wl te tm theta' phi' kpo' kp c3') (hwl : 0 < wl)
    (hL : List.Forall₂ (fun l l' => l.form.SameLines Q l'.form ∧ l'.depth = l.depth) Ls Ls')
    {F : Crystal.Fluxes (P * 1)} {F' : Crystal.Fluxes (P * Q)} (hF : c3.poyntingFluxEnd = .ok F)
    (hF' : c3'.poyntingFluxEnd = .ok F') :
    (∀ (r : Fin P) (j : Fin Q), F'.Rg (orderPos r j) = (if 2 * (j : ℕ) + 1 = Q then F.Rg (orderPos r 0) else 0) ∧
      F'.Tg (orderPos r j) = if 2 * (j : ℕ) + 1 = Q then F.Tg (orderPos r 0) else 0) ∧ F'.R = F.R ∧ F'.T = F.T := by
  obtain ⟨hP, -, hpw, hb, hg⟩ := make_order hE
  obtain ⟨-, hQ, hpw', hb', hg'⟩ := make_order hE'
  simp only at hP hQ hg hg'
  let s0 : Fin Q := ⟨(Q - 1) / 2, by omega⟩
  have hgg : ∀ b, c'.expansion.g (lineOrder s0 b) = Turn.id.app (c.expansion.g b) := by
    intro b
    obtain ⟨r, s, rfl⟩ := exists_orderPos b
    have hs : ((s : ℕ) : ℤ) - ((1 - 1) / 2 : ℕ) = 0 := by omega
    rw [lineOrder_pos, Turn.id_app, hg, hg', hs]
    have hb1 := slid_reciproc hb hb'
    simp [latticeVec, s0, hb1]
  have hmid : ∀ b : Fin (P * 1), ((lineOrder s0 b : Fin (P * Q)) : ℕ) = (P * Q - 1) / 2 ↔ (b : ℕ) = (P * 1 - 1) / 2 := by
    intro b
    obtain ⟨r, s, rfl⟩ := exists_orderPos b
    rw [lineOrder_pos, orderPos_mid hP hQ, orderPos_mid hP (by norm_num)]
    have : (s : ℕ) = 0 := by omega
    simp [s0]
  obtain ⟨c1, c2, c3, c4⟩ := device_carry (he _) (he _) h h' hwl hF hF' (f := lineOrder s0) (d := fun _ => 1)
    (o := Turn.id) (lineOrder_inj s0) (by simp) hgg (Turn.id_app kp).symm
    (hL.imp fun l l' hl => ⟨hl.2, fun C C' hC hC' => lines_fit hpw hpw' s0 hl.1 hC hC'⟩)
    (fun inc inc' _ hi hi' => ⟨1, norm_one, incident_embed hi hi' (lineOrder_inj s0) hmid fun x hx hxm => by
      obtain ⟨r, j, rfl⟩ := exists_orderPos x
      obtain ⟨-, h2⟩ := (orderPos_mid hP hQ).1 hxm
      exact hx (orderPos r 0) (by rw [lineOrder_pos, show j = s0 from Fin.ext h2])⟩)
  refine ⟨fun r j => ?_, c3, c4⟩
  by_cases hj : 2 * (j : ℕ) + 1 = Q
  · rw [if_pos hj, if_pos hj, show j = s0 from Fin.ext (by simp only [s0]; omega)]
    have := c1 (orderPos r 0)
    rwa [lineOrder_pos] at this
  · rw [if_neg hj, if_neg hj]
    refine c2 _ fun b hb => hj ?_
    obtain ⟨r', s, rfl⟩ := exists_orderPos b
    rw [lineOrder_pos, orderPos_inj] at hb
    rw [hb.2]
    simp only [s0]
    omega

/-! ### C89 -/

/-- **C89.** A device turned or mirrored together with its source gives the same powers, the orders being exchanged as
their directions are.  The lattice vectors may be listed with either sign, the pixmaps being flipped (`np.flip`) along
the vectors that are reversed; the pixmaps that are flipped must all have the same number of pixels. -/
theorem C89_turned {c c3 c' c3' : Crystal (P * Q)} {Ls Ls' : List (Layer (P * Q))} {o : Turn} {p q : Bool} {K L : ℕ}
    (he : EigContract (lib.eig (P * Q))) (hE : Expansion.make tag (P, Q) lat = .ok c.expansion)
    (hE' : Expansion.make tag' (P, Q) (turnedLattice o p q lat) = .ok c'.expansion)
    (h : DeviceRun lib c stack m Ls er et wl te tm theta phi kpo kp c3)
    (h' : DeviceRun lib c' stack' m' Ls' er et wl te' tm' theta' phi' kpo' (o.app kp) c3') (hwl : 0 < wl)
    (hs : SourceTurned o kp te tm te' tm')
    (hL : List.Forall₂ (fun l l' => l.form.Flipped p q K L l'.form ∧ l'.depth = l.depth) Ls Ls')
    {F F' : Crystal.Fluxes (P * Q)} (hF : c3.poyntingFluxEnd = .ok F) (hF' : c3'.poyntingFluxEnd = .ok F') :
    (∀ (r : Fin P) (s : Fin Q), F'.Rg (orderPos (flipAt p r) (flipAt q s)) = F.Rg (orderPos r s) ∧
      F'.Tg (orderPos (flipAt p r) (flipAt q s)) = F.Tg (orderPos r s)) ∧ F'.R = F.R ∧ F'.T = F.T := by
  obtain ⟨hP, hQ, hpw, hb, hg⟩ := make_order hE
  obtain ⟨-, -, hpw', hb', hg'⟩ := make_order hE'
  simp only at hP hQ hg hg'
  have hgg : ∀ b, c'.expansion.g (flipOrder P Q p q b) = o.app (c.expansion.g b) := by
    intro b
    obtain ⟨r, s, rfl⟩ := exists_orderPos b
    rw [flipOrder_pos, hg, hg', flipAt_mid p hP, flipAt_mid q hQ, turned_reciproc hb hb', turned_latticeVec]
  have hk0 : 0 < 2 * Real.pi / wl := by have := Real.pi_pos; positivity
  have hd : ∀ b, ‖flipPhases P Q p q K L b‖ = 1 := by
    intro b; rw [flipPhases, norm_mul, flipPhase_norm, flipPhase_norm, one_mul]
  obtain ⟨c1, -, c3, c4⟩ := device_carry he he h h' hwl hF hF' (f := flipOrder P Q p q) (d := flipPhases P Q p q K L)
    (o := o) (flipOrder_inj p q) hd hgg rfl
    (hL.imp fun l l' hl => ⟨hl.2, fun C C' hC hC' => flipped_fit hpw hpw' hl.1 hC hC'⟩)
    (fun inc inc' hpos hi hi' => incident_turn hs hk0 hpos hi hi' (flipOrder_inj p q) hd
      (orderPos ⟨(P - 1) / 2, by omega⟩ ⟨(Q - 1) / 2, by omega⟩) ((orderPos_mid hP hQ).2 ⟨rfl, rfl⟩) (by
        rw [flipOrder_pos]
        refine (orderPos_mid hP hQ).2 ⟨?_, ?_⟩
        · have := flipAt_mid p hP ⟨(P - 1) / 2, by omega⟩
          simp only [sub_self] at this
          have h0 : flipInt p 0 = 0 := by cases p <;> rfl
          rw [h0] at this
          omega
        · have := flipAt_mid q hQ ⟨(Q - 1) / 2, by omega⟩
          simp only [sub_self] at this
          have h0 : flipInt q 0 = 0 := by cases q <;> rfl
          rw [h0] at this
          omega))
  refine ⟨fun r s => ?_, c3, c4⟩
  have := c1 (orderPos r s)
  rwa [flipOrder_pos] at this

/-- **C89.** The two vectors of the lattice may be listed in either order, with the axes of the pixmaps and the numbers
of orders exchanged, in a device that is turned or mirrored together with its source. -/
theorem C89_exchanged {c c3 : Crystal (P * Q)} {c' c3' : Crystal (Q * P)} {Ls : List (Layer (P * Q))}
    {Ls' : List (Layer (Q * P))} {o : Turn} (he : ∀ n, EigContract (lib.eig n))
    (hE : Expansion.make tag (P, Q) lat = .ok c.expansion)
    (hE' : Expansion.make tag' (Q, P) (o.app lat.2, o.app lat.1) = .ok c'.expansion)
    (h : DeviceRun lib c stack m Ls er et wl te tm theta phi kpo kp c3)
    (h' : DeviceRun lib c' stack' m' Ls' er et wl te' tm' theta' phi' kpo' (o.app kp) c3') (hwl : 0 < wl)
    (hs : SourceTurned o kp te tm te' tm')
    (hL : List.Forall₂ (fun l l' => l.form.Transposed l'.form ∧ l'.depth = l.depth) Ls Ls')
    {F : Crystal.Fluxes (P * Q)} {F' : Crystal.Fluxes (Q * P)} (hF : c3.poyntingFluxEnd = .ok F)
    (hF' : c3'.poyntingFluxEnd = .ok F') :
    (∀ (r : Fin P) (s : Fin Q), F'.Rg (orderPos s r) = F.Rg (orderPos r s) ∧
      F'.Tg (orderPos s r) = F.Tg (orderPos r s)) ∧ F'.R = F.R ∧ F'.T = F.T := by
  obtain ⟨hP, hQ, hpw, hb, hg⟩ := make_order hE
  obtain ⟨-, -, hpw', hb', hg'⟩ := make_order hE'
  simp only at hP hQ hg hg' hb'
  have hgg : ∀ b, c'.expansion.g (swapOrder P Q b) = o.app (c.expansion.g b) := by
    intro b
    obtain ⟨r, s, rfl⟩ := exists_orderPos b
    have e0 : turnedLattice o false false lat = (o.app lat.1, o.app lat.2) := by
      simp [turnedLattice, flipSign]
    have e1 := turned_reciproc (o := o) (p := false) (q := false) hb (b' := (c'.expansion.reciprocal.2, c'.expansion.reciprocal.1))
      (by rw [e0]; exact reciproc_swap_ok hb')
    have e2 := turned_latticeVec o false false c.expansion.reciprocal (((r : ℕ) : ℤ) - ((P - 1) / 2 : ℕ)) (((s : ℕ) : ℤ) - ((Q - 1) / 2 : ℕ))
    rw [← e1] at e2
    rw [swapOrder_pos, hg, hg', ← e2]
    simp only [latticeVec, flipInt, Bool.false_eq_true, if_false, Prod.mk.injEq]
    constructor <;> ring
  have hk0 : 0 < 2 * Real.pi / wl := by have := Real.pi_pos; positivity
  obtain ⟨c1, -, c3, c4⟩ := device_carry (he _) (he _) h h' hwl hF hF' (f := swapOrder P Q) (d := fun _ => 1)
    (o := o) (swapOrder_inj P Q) (by simp) hgg rfl
    (hL.imp fun l l' hl => ⟨hl.2, fun C C' hC hC' => transposed_fit hpw hpw' hl.1 hC hC'⟩)
    (fun inc inc' hpos hi hi' => incident_turn hs hk0 hpos hi hi' (swapOrder_inj P Q) (by simp)
      (orderPos ⟨(P - 1) / 2, by omega⟩ ⟨(Q - 1) / 2, by omega⟩) ((orderPos_mid hP hQ).2 ⟨rfl, rfl⟩) (by
        rw [swapOrder_pos]
        exact (orderPos_mid hQ hP).2 ⟨rfl, rfl⟩))
  refine ⟨fun r s => ?_, c3, c4⟩
  have := c1 (orderPos r s)
  rwa [swapOrder_pos] at this

/-- **C89.** Half a turn: on the same lattice, with the pixmaps flipped along both axes and the opposite in-plane wave
vector, order `(m, n)` carries the power of order `(-m, -n)`; the polarisation is the same. -/
theorem C89_half_turn {c c3 c' c3' : Crystal (P * Q)} {Ls Ls' : List (Layer (P * Q))} {K L : ℕ}
    (he : EigContract (lib.eig (P * Q))) (hE : Expansion.make tag (P, Q) lat = .ok c.expansion)
    (hE' : Expansion.make tag' (P, Q) lat = .ok c'.expansion)
    (h : DeviceRun lib c stack m Ls er et wl te tm theta phi kpo kp c3)
    (h' : DeviceRun lib c' stack' m' Ls' er et wl te tm theta' phi' kpo' (-kp.1, -kp.2) c3') (hwl : 0 < wl)
    (hob : kp = (0, 0) ∨ (1 / 10 ^ 8) ^ 2 ≤ kp.1 ^ 2 + kp.2 ^ 2)
    (hL : List.Forall₂ (fun l l' => l.form.Flipped true true K L l'.form ∧ l'.depth = l.depth) Ls Ls')
    {F F' : Crystal.Fluxes (P * Q)} (hF : c3.poyntingFluxEnd = .ok F) (hF' : c3'.poyntingFluxEnd = .ok F') :
    (∀ (r : Fin P) (s : Fin Q), F'.Rg (orderPos r.rev s.rev) = F.Rg (orderPos r s) ∧
      F'.Tg (orderPos r.rev s.rev) = F.Tg (orderPos r s)) ∧ F'.R = F.R ∧ F'.T = F.T := by
  let o : Turn := ⟨-1, 0, 1, by norm_num, by norm_num⟩
  have hlat : turnedLattice o true true lat = lat := by simp [turnedLattice, Turn.app, flipSign, o]
  have hk : o.app kp = (-kp.1, -kp.2) := by simp [Turn.app, o]
  have hs : SourceTurned o kp te tm te tm := by
    rcases hob with rfl | hob
    · exact ⟨-1, by simp, .inl ⟨rfl, by simp [o], by simp [o]⟩⟩
    · exact ⟨1, by simp, .inr ⟨hob, by simp, by simp [o]⟩⟩
  exact C89_turned he hE (by rw [hlat]; exact hE') h (by rw [hk]; exact h') hwl hs hL hF hF'

/-- **C89.** A mirror across the second vector of a rectangular lattice: with the pixmaps flipped along the first axis
and the first component of the wave vector reversed, order `(m, n)` carries the power of order `(-m, n)`; the
polarisation has its `tm` component reversed. -/
theorem C89_mirror {c c3 c' c3' : Crystal (P * Q)} {Ls Ls' : List (Layer (P * Q))} {K : ℕ} {a b : ℝ}
    (he : EigContract (lib.eig (P * Q))) (hE : Expansion.make tag (P, Q) ((a, 0), (0, b)) = .ok c.expansion)
    (hE' : Expansion.make tag' (P, Q) ((a, 0), (0, b)) = .ok c'.expansion)
    (h : DeviceRun lib c stack m Ls er et wl te tm theta phi kpo kp c3)
    (h' : DeviceRun lib c' stack' m' Ls' er et wl te (-tm) theta' phi' kpo' (-kp.1, kp.2) c3') (hwl : 0 < wl)
    (hob : kp = (0, 0) ∨ (1 / 10 ^ 8) ^ 2 ≤ kp.1 ^ 2 + kp.2 ^ 2)
    (hL : List.Forall₂ (fun l l' => l.form.Flipped true false K 0 l'.form ∧ l'.depth = l.depth) Ls Ls')
    {F F' : Crystal.Fluxes (P * Q)} (hF : c3.poyntingFluxEnd = .ok F) (hF' : c3'.poyntingFluxEnd = .ok F') :
    (∀ (r : Fin P) (s : Fin Q), F'.Rg (orderPos r.rev s) = F.Rg (orderPos r s) ∧
      F'.Tg (orderPos r.rev s) = F.Tg (orderPos r s)) ∧ F'.R = F.R ∧ F'.T = F.T := by
  let o : Turn := ⟨-1, 0, -1, by norm_num, by norm_num⟩
  have hlat : turnedLattice o true false ((a, 0), (0, b)) = ((a, 0), (0, b)) := by
    simp [turnedLattice, Turn.app, flipSign, o]
  have hk : o.app kp = (-kp.1, kp.2) := by simp [Turn.app, o]
  have hs : SourceTurned o kp te tm te (-tm) := by
    rcases hob with rfl | hob
    · exact ⟨-1, by simp, .inl ⟨rfl, by simp [o], by simp [o]⟩⟩
    · exact ⟨1, by simp, .inr ⟨hob, by simp, by simp [o]⟩⟩
  exact C89_turned he hE (by rw [hlat]; exact hE') h (by rw [hk]; exact h') hwl hs hL hF hF'

/-- **C89.** Consequently a device whose patterns are symmetric about the middle of the cell treats opposite angles of
incidence alike: the powers at `-kp` are those at `kp`, in the opposite orders. -/
theorem C89_symmetric {c c3 c3' : Crystal (P * Q)} {Ls : List (Layer (P * Q))} {K L : ℕ}
    (he : EigContract (lib.eig (P * Q))) (hE : Expansion.make tag (P, Q) lat = .ok c.expansion)
    (h : DeviceRun lib c stack m Ls er et wl te tm theta phi kpo kp c3)
    (h' : DeviceRun lib c stack m' Ls er et wl te tm theta' phi' kpo' (-kp.1, -kp.2) c3') (hwl : 0 < wl)
    (hob : kp = (0, 0) ∨ (1 / 10 ^ 8) ^ 2 ≤ kp.1 ^ 2 + kp.2 ^ 2)
    (hL : ∀ l ∈ Ls, l.form.Flipped true true K L l.form)
    {F F' : Crystal.Fluxes (P * Q)} (hF : c3.poyntingFluxEnd = .ok F) (hF' : c3'.poyntingFluxEnd = .ok F') :
    (∀ (r : Fin P) (s : Fin Q), F'.Rg (orderPos r.rev s.rev) = F.Rg (orderPos r s) ∧
      F'.Tg (orderPos r.rev s.rev) = F.Tg (orderPos r s)) ∧ F'.R = F.R ∧ F'.T = F.T :=
  C89_half_turn he hE hE h h' hwl hob (List.forall₂_same.2 fun l hl => ⟨hL l hl, rfl⟩) hF hF'

end

/-! ### Non-vacuity -/

/-- Non-vacuity of C88: a vacuum layer with 3 orders, and with 3 × 3 orders, at oblique incidence. -/
example : ∃ (lib : NumLib) (c c3 : Crystal (3 * 1)) (c' c3' : Crystal (3 * 3)) (Ls : List (Layer (3 * 1)))
    (Ls' : List (Layer (3 * 3))) (kpo : Option (ℂ × ℂ)) (F : Crystal.Fluxes (3 * 1)) (F' : Crystal.Fluxes (3 * 3)),
    (∀ n, EigContract (lib.eig n)) ∧ Expansion.make 0 (3, 1) ((1, 0), (0, 1)) = .ok c.expansion ∧
    Expansion.make 0 (3, 3) (slidLattice 1 0 ((1, 0), (0, 1))) = .ok c'.expansion ∧
    DeviceRun lib c ["a"] (.inl true) Ls 1 1 2 1 Complex.I 0 0 kpo (Real.pi / 2, 0) c3 ∧
    DeviceRun lib c' ["a"] (.inl true) Ls' 1 1 2 1 Complex.I 0 0 kpo (Real.pi / 2, 0) c3' ∧
    List.Forall₂ (fun l l' => l.form.SameLines 3 l'.form ∧ l'.depth = l.depth) Ls Ls' ∧ Ls ≠ [] ∧
    c3.poyntingFluxEnd = .ok F ∧ c3'.poyntingFluxEnd = .ok F' ∧ F'.R = F.R ∧ F'.T = F.T := by
  obtain ⟨e, he, -⟩ := unit_expansion 0 (pw := (3, 1)) rfl rfl
  obtain ⟨e', he', -⟩ := unit_expansion 0 (pw := (3, 3)) rfl rfl
  have hpol : polNorm (1 : ℂ) Complex.I ≠ 0 := by
    unfold polNorm
    rw [norm_one, Complex.norm_I]
    positivity
  obtain ⟨c3, F, h1, h2⟩ := bragg_run (P := 3) (Q := 1) he false hpol
  obtain ⟨c3', F', h1', h2'⟩ := bragg_run (P := 3) (Q := 3) he' false hpol
  have hlat : slidLattice 1 0 ((1, 0), (0, 1)) = ((1, 0), (0, 1)) := by simp [slidLattice]
  have hE' : Expansion.make 0 (3, 3) (slidLattice 1 0 ((1, 0), (0, 1))) = .ok e' := by rw [hlat]; exact he'
  have hL : List.Forall₂ (fun (l : Layer (3 * 1)) (l' : Layer (3 * 3)) => l.form.SameLines 3 l'.form ∧ l'.depth = l.depth)
      [{ expansion := e, form := .uniform 1, depth := 1 / 3 }] [{ expansion := e', form := .uniform 1, depth := 1 / 3 }] :=
    .cons ⟨rfl, rfl⟩ .nil
  exact ⟨plateLib, _, c3, _, c3', _, _, _, F, F', plateLib_contract, he, hE', h1, h1', hL, by simp, h2, h2',
    (C88_lines plateLib_contract he hE' h1 h1' two_pos hL h2 h2').2⟩

/-- Non-vacuity of C88, with pixmaps: two bars drawn on 2 × 1 and on 2 × 3 pixels. -/
example : ∃ (lib : NumLib) (c c3 c' c3' : Crystal (1 * 1)) (Ls Ls' : List (Layer (1 * 1))) (F F' : Crystal.Fluxes (1 * 1)),
    (∀ n, EigContract (lib.eig n)) ∧ Expansion.make 0 (1, 1) ((1, 0), (0, 1)) = .ok c.expansion ∧
    Expansion.make 0 (1, 1) (slidLattice 1 0 ((1, 0), (0, 1))) = .ok c'.expansion ∧
    DeviceRun lib c ["a"] (.inl true) Ls 1 1 1 1 0 0 0 (some (0, 0)) (0, 0) c3 ∧
    DeviceRun lib c' ["a"] (.inl true) Ls' 1 1 1 1 0 0 0 (some (0, 0)) (0, 0) c3' ∧
    List.Forall₂ (fun l l' => l.form.SameLines 1 l'.form ∧ l'.depth = l.depth) Ls Ls' ∧
    Ls.map Layer.form = [.fft barPix] ∧ Ls'.map Layer.form = [.fft ⟨2, 3, fun x _ => if x = 0 then 3 else 5⟩] ∧
    c3.poyntingFluxEnd = .ok F ∧ c3'.poyntingFluxEnd = .ok F' := by
  obtain ⟨c3, F, h1, h2⟩ := meanFour_run (nx := 2) (ny := 1) (val := fun x _ => if x = 0 then 3 else 5) two_pos one_pos
    (by norm_num [Fin.sum_univ_two]) (te := 1) (tm := 0) (by simp [polNorm])
  obtain ⟨c3', F', h1', h2'⟩ := meanFour_run (nx := 2) (ny := 3) (val := fun x _ => if x = 0 then 3 else 5) two_pos
    three_pos (by norm_num [Fin.sum_univ_two]) (te := 1) (tm := 0) (by simp [polNorm])
  have hlat : slidLattice 1 0 ((1, 0), (0, 1)) = ((1, 0), (0, 1)) := by simp [slidLattice]
  refine ⟨plateLib, _, c3, _, c3', _, _, F, F', plateLib_contract, exampleExpansion_make,
    by rw [hlat]; exact exampleExpansion_make, h1, h1', .cons ⟨⟨_, rfl, rfl, le_refl _, by norm_num, ?_⟩, rfl⟩ .nil, rfl, rfl, h2, h2'⟩
  intro x y x' y' hx
  have : x' = x := Fin.ext hx
  simp [this]

/-- Non-vacuity of C89: a vacuum layer with 3 × 3 orders at oblique incidence, and its mirror image. -/
example : ∃ (lib : NumLib) (c c3 c' c3' : Crystal (3 * 3)) (Ls Ls' : List (Layer (3 * 3)))
    (kpo kpo' : Option (ℂ × ℂ)) (F F' : Crystal.Fluxes (3 * 3)),
    EigContract (lib.eig (3 * 3)) ∧ Expansion.make 0 (3, 3) ((1, 0), (0, 1)) = .ok c.expansion ∧
    Expansion.make 0 (3, 3) ((1, 0), (0, 1)) = .ok c'.expansion ∧
    DeviceRun lib c ["a"] (.inl true) Ls 1 1 2 1 Complex.I 0 0 kpo (Real.pi / 2, 0) c3 ∧
    DeviceRun lib c' ["a"] (.inl true) Ls' 1 1 2 1 (-Complex.I) 0 0 kpo' (-(Real.pi / 2), 0) c3' ∧
    List.Forall₂ (fun l l' => l.form.Flipped true false 5 0 l'.form ∧ l'.depth = l.depth) Ls Ls' ∧ Ls ≠ [] ∧
    c3.poyntingFluxEnd = .ok F ∧ c3'.poyntingFluxEnd = .ok F' ∧
    ∀ r s : Fin 3, F'.Tg (orderPos r.rev s) = F.Tg (orderPos r s) := by
  obtain ⟨e, he, -⟩ := unit_expansion 0 (pw := (3, 3)) rfl rfl
  have hpol : ∀ z : ℂ, polNorm (1 : ℂ) z ≠ 0 := by
    intro z
    unfold polNorm
    rw [norm_one]
    positivity
  obtain ⟨c3, F, h1, h2⟩ := bragg_run (P := 3) (Q := 3) he false (hpol Complex.I)
  obtain ⟨c3', F', h1', h2'⟩ := bragg_run (P := 3) (Q := 3) he true (hpol (-Complex.I))
  have hL : List.Forall₂ (fun (l : Layer (3 * 3)) (l' : Layer (3 * 3)) => l.form.Flipped true false 5 0 l'.form ∧ l'.depth = l.depth)
      [{ expansion := e, form := .uniform 1, depth := 1 / 3 }] [{ expansion := e, form := .uniform 1, depth := 1 / 3 }] :=
    .cons ⟨rfl, rfl⟩ .nil
  have hp3 := Real.two_le_pi
  refine ⟨plateLib, _, c3, _, c3', _, _, _, _, F, F', plateLib_contract _, he, he, h1, h1', hL, by simp, h2, h2', fun r s =>
    ((C89_mirror (plateLib_contract _) he he h1 h1' two_pos (.inr ?_) hL h2 h2').1 r s).2⟩
  simp only [Bool.false_eq_true, if_false]
  nlinarith

/-- Non-vacuity of C89, with a pixmap: a pattern of 2 × 2 pixels, turned by half a turn, and transposed. -/
example : ∃ (lib : NumLib) (c c3 c' c3' c'' c3'' : Crystal (1 * 1)) (Ls Ls' Ls'' : List (Layer (1 * 1)))
    (F F' F'' : Crystal.Fluxes (1 * 1)), (∀ n, EigContract (lib.eig n)) ∧
    Expansion.make 0 (1, 1) ((1, 0), (0, 1)) = .ok c.expansion ∧
    Expansion.make 0 (1, 1) ((1, 0), (0, 1)) = .ok c'.expansion ∧
    Expansion.make 0 (1, 1) (Turn.app ⟨0, 1, -1, by norm_num, by norm_num⟩ (0, 1), Turn.app ⟨0, 1, -1, by norm_num, by norm_num⟩ (1, 0)) =
      .ok c''.expansion ∧
    DeviceRun lib c ["a"] (.inl true) Ls 1 1 1 1 0 0 0 (some (0, 0)) (0, 0) c3 ∧
    DeviceRun lib c' ["a"] (.inl true) Ls' 1 1 1 1 0 0 0 (some (0, 0)) (0, 0) c3' ∧
    DeviceRun lib c'' ["a"] (.inl true) Ls'' 1 1 1 0 1 0 0 (some (0, 0)) (0, 0) c3'' ∧
    List.Forall₂ (fun l l' => l.form.Flipped true true 2 2 l'.form ∧ l'.depth = l.depth) Ls Ls' ∧
    List.Forall₂ (fun l l' => l.form.Transposed l'.form ∧ l'.depth = l.depth) Ls Ls'' ∧
    Ls.map Layer.form = [.fft ⟨2, 2, fun x y => if x = 0 then (if y = 0 then 1 else 3) else (if y = 0 then 5 else 7)⟩] ∧
    SourceTurned ⟨0, 1, -1, by norm_num, by norm_num⟩ (0, 0) 1 0 0 1 ∧
    c3.poyntingFluxEnd = .ok F ∧ c3'.poyntingFluxEnd = .ok F' ∧ c3''.poyntingFluxEnd = .ok F'' := by
  let val : Fin 2 → Fin 2 → ℂ := fun x y => if x = 0 then (if y = 0 then 1 else 3) else (if y = 0 then 5 else 7)
  obtain ⟨c3, F, h1, h2⟩ := meanFour_run (val := val) two_pos two_pos
    (by norm_num [Fin.sum_univ_two, val]) (te := 1) (tm := 0) (by simp [polNorm])
  obtain ⟨c3', F', h1', h2'⟩ := meanFour_run (val := fun x y => val (flipAt true x) (flipAt true y)) two_pos two_pos
    (by norm_num [Fin.sum_univ_two, val, flipAt, Fin.rev]) (te := 1) (tm := 0) (by simp [polNorm])
  obtain ⟨c3'', F'', h1'', h2''⟩ := meanFour_run (val := fun x y => val y x) two_pos two_pos
    (by norm_num [Fin.sum_univ_two, val]) (te := 0) (tm := 1) (by simp [polNorm])
  refine ⟨plateLib, _, c3, _, c3', _, c3'', _, _, _, F, F', F'', plateLib_contract, exampleExpansion_make,
    exampleExpansion_make, ?_, h1, h1', h1'', .cons ⟨⟨fun _ => rfl, fun _ => rfl, rfl⟩, rfl⟩ .nil,
    .cons ⟨rfl, rfl⟩ .nil, rfl, ⟨1, by simp, .inl ⟨rfl, by simp, by simp⟩⟩, h2, h2', h2''⟩
  have : ((Turn.app ⟨0, 1, -1, by norm_num, by norm_num⟩ (0, 1), Turn.app ⟨0, 1, -1, by norm_num, by norm_num⟩ (1, 0)) : R2 × R2) =
      ((1, 0), (0, 1)) := by
    simp [Turn.app]
  rw [this]
  exact exampleExpansion_make

end Khepri
