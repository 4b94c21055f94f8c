import Verif.Lemmas.TwistedSymmetry
import Verif.Lemmas.ExampleTwistedRun
import Verif.Props.Symmetry

/-!
# Property C93 (equivalent stacks of layers of two lattices), and C74 for islands
-/

namespace Khepri

open Matrix

/-- The numbers of orders of an expansion are odd. -/
theorem built_odd {N : ℕ} {e : Expansion N} (h : Built e) : e.pw.1 % 2 = 1 ∧ e.pw.2 % 2 = 1 := by
  induction h with
  | make h =>
    obtain ⟨h1, h2, b, -, rfl⟩ := make_eq_ok.1 h
    exact ⟨h1, h2⟩
  | rotate a _ ih => exact ih
  | add _ _ h _ _ =>
    obtain ⟨h1, h2, -, -, h3, -⟩ := add_eq_ok h
    rw [h3]
    exact ⟨by rw [Nat.pow_mod, h1], by rw [Nat.pow_mod, h2]⟩

section
variable {N : ℕ} {lib : NumLib} {c c3 c' c3' : Crystal N} {stack stack' : List String} {m m' : Bool ⊕ List Bool}
  {Ls Ls' : List (Layer N)} {er et wl : ℝ} {te tm : ℂ} {theta phi theta' phi' : ℝ} {kpo kpo' : Option (ℂ × ℂ)}
  {kp : R2} {f f' : Crystal.Fluxes N}

/-- **C74.** Moving all the islands of the analytical layers by the same vector changes no power. -/
theorem C74_moved (he : EigContract (lib.eig N)) (hb : Built c.expansion) (hx : c'.expansion = c.expansion) {v : R2}
    (hv : (Displacement.vector v).Fits c.expansion)
    (h : DeviceRun lib c stack m Ls er et wl te tm theta phi kpo kp c3)
    (h' : DeviceRun lib c' stack' m' Ls' er et wl te tm theta' phi' kpo' kp c3')
    (hL : List.Forall₂ (fun l l' => l.form.Moved v l'.form ∧ l'.depth = l.depth) Ls Ls') (hwl : 0 < wl)
    (hf : c3.poyntingFluxEnd = .ok f) (hf' : c3'.poyntingFluxEnd = .ok f') : f' = f := by
  obtain ⟨o1, o2⟩ := built_odd hb
  obtain ⟨hodd, -⟩ := C25_specular_middle hb
  rw [Nat.odd_iff] at hodd
  obtain ⟨d, hd, hfit⟩ := displaced_fit (jv1 := lib.jv1) o1 o2 hv
  obtain ⟨k1, -, k3, k4⟩ := device_carry he he h h' hwl hf hf' (f := id) (d := d) (o := Turn.id) Function.injective_id hd
    (fun b => by rw [hx, Turn.id_app]; rfl) (Turn.id_app kp).symm
    (hL.imp fun l l' hl => ⟨hl.2, fun C C' hC hC' => embed_id_fit (hfit _ _ _ _ hl.1 hC (by rwa [hx] at hC'))⟩)
    (fun inc inc' _ hi hi' => by
      rw [hi, Except.ok.injEq] at hi'
      subst hi'
      exact incident_phase hi Function.injective_id hd ⟨(N - 1) / 2, by omega⟩ rfl rfl)
  obtain ⟨R, T, Rg, Tg⟩ := f
  obtain ⟨R', T', Rg', Tg'⟩ := f'
  simp only [id] at k1 k3 k4
  rw [Crystal.Fluxes.mk.injEq]
  exact ⟨k3, k4, funext fun b => (k1 b).1, funext fun b => (k1 b).2⟩

end

section
variable {M : ℕ} {lib : NumLib} {tag tag' : ℕ} {lhs rhs lhs' rhs' : Expansion M} {se se' : SumExpansion M}
  {c c3 c' c3' : Crystal (M * M)} {stack stack' : List String} {m m' : Bool ⊕ List Bool}
  {Ls Ls' : List (TwistedLayer M)} {er et wl : ℝ} {te tm te' tm' : ℂ} {theta phi theta' phi' : ℝ}
  {kpo kpo' : Option (ℂ × ℂ)} {kp : R2} {f f' : Crystal.Fluxes (M * M)}

/-- **C93.** The patterns of the two lattices may be displaced independently of each other: no power changes. -/
theorem C93_displaced (he : ∀ n, EigContract (lib.eig n)) (hl : Built lhs) (hr : Built rhs)
    (hse : lhs.add tag rhs = .ok se) {D D' : Displacement} (hD : D.Fits lhs) (hD' : D'.Fits rhs)
    (h : TwistedRun lib se c stack m Ls er et wl te tm theta phi kpo kp c3)
    (h' : TwistedRun lib se c' stack' m' Ls' er et wl te tm theta' phi' kpo' kp c3')
    (hL : List.Forall₂ (fun l l' => l.Corresponds (Form.Displaced D) (Form.Displaced D') l' ∧ l'.depth = l.depth) Ls Ls')
    (hwl : 0 < wl) (hf : c3.poyntingFluxEnd = .ok f) (hf' : c3'.poyntingFluxEnd = .ok f') : f' = f := by
  obtain ⟨o1, o2⟩ := built_odd hl
  obtain ⟨o1', o2'⟩ := built_odd hr
  obtain ⟨hodd, -⟩ := C25_specular_middle hl
  rw [Nat.odd_iff] at hodd
  obtain ⟨d, hd, hfit⟩ := displaced_fit (jv1 := lib.jv1) o1 o2 hD
  obtain ⟨d', hd', hfit'⟩ := displaced_fit (jv1 := lib.jv1) o1' o2' hD'
  let i0 : Fin M := ⟨(M - 1) / 2, by omega⟩
  obtain ⟨k1, k3, k4⟩ := twisted_carry he hse hse h h' hwl hwl hf hf' (f := pairMap id id) (d := pairPhase d d')
    (o := Turn.id) (pairMap_inj Function.injective_id Function.injective_id) (pairPhase_norm hd hd')
    (fun b => by rw [pairMap_id, Turn.id_app]; rfl) rfl
    (hL.imp fun l l' hl => ⟨by rw [hl.2], fun C C' hC hC' =>
      twisted_fit Function.bijective_id Function.bijective_id hfit hfit' hl.1 hC hC'⟩)
    (fun inc inc' _ hi hi' => by
      rw [hi, Except.ok.injEq] at hi'
      subst hi'
      exact incident_phase hi (pairMap_inj Function.injective_id Function.injective_id) (pairPhase_norm hd hd')
        (pairPos i0 i0) ((pairPos_mid hodd i0 i0).2 ⟨rfl, rfl⟩) (pairMap_pos _ _ _ _))
  rw [pairMap_id] at k1
  exact fluxes_ext k1 k3 k4

/-- **C93.** The two lattices may be listed in either order: order `(i, r)` of one calculation carries the powers of
order `(r, i)` of the other. -/
theorem C93_swapped (he : ∀ n, EigContract (lib.eig n)) (hl : Built lhs) (hse : lhs.add tag rhs = .ok se)
    (hse' : rhs.add tag' lhs = .ok se')
    (h : TwistedRun lib se c stack m Ls er et wl te tm theta phi kpo kp c3)
    (h' : TwistedRun lib se' c' stack' m' (Ls.map TwistedLayer.swap) er et wl te tm theta' phi' kpo' kp c3')
    (hwl : 0 < wl) (hf : c3.poyntingFluxEnd = .ok f) (hf' : c3'.poyntingFluxEnd = .ok f') :
    (∀ r i, f'.Rg (pairPos i r) = f.Rg (pairPos r i) ∧ f'.Tg (pairPos i r) = f.Tg (pairPos r i)) ∧
      f'.R = f.R ∧ f'.T = f.T := by
  obtain ⟨hodd, -⟩ := C25_specular_middle hl
  rw [Nat.odd_iff] at hodd
  let i0 : Fin M := ⟨(M - 1) / 2, by omega⟩
  have hg : ∀ b, se'.exp.g (pairSwap b) = se.exp.g b := by
    intro b
    obtain ⟨r, i, rfl⟩ := exists_pairPos b
    rw [pairSwap_pos, add_g hse, add_g hse', add_comm, add_comm (rhs.g i).2]
  obtain ⟨k1, k3, k4⟩ := twisted_carry he hse hse' h h' hwl hwl hf hf' (f := pairSwap) (d := fun _ => 1)
    (o := Turn.id) pairSwap_inj (by simp) (fun b => by rw [Turn.id_app]; simp only [orderKx, orderKy, hg]) rfl
    (by
      rw [List.forall₂_map_right_iff]
      exact List.forall₂_same.2 fun l _ => ⟨by cases l <;> rfl, fun C C' hC hC' => swapped_fit hC hC'⟩)
    (fun inc inc' _ hi hi' => by
      rw [hi, Except.ok.injEq] at hi'
      subst hi'
      exact incident_phase hi pairSwap_inj (by simp) (pairPos i0 i0) ((pairPos_mid hodd i0 i0).2 ⟨rfl, rfl⟩)
        (pairSwap_pos _ _))
  refine ⟨fun r i => ?_, k3, k4⟩
  have := k1 (pairPos r i)
  rwa [pairSwap_pos] at this

/-- **C93.** The two lattices may be turned together (`expansion.rotate` on both), with the source: no power changes. -/
theorem C93_rotated (he : ∀ n, EigContract (lib.eig n)) (hl : Built lhs) {a : ℝ} (hse : lhs.add tag rhs = .ok se)
    (hse' : (lhs.rotate a).add tag' (rhs.rotate a) = .ok se')
    (h : TwistedRun lib se c stack m Ls er et wl te tm theta phi kpo kp c3)
    (h' : TwistedRun lib se' c' stack' m' Ls' er et wl te' tm' theta' phi' kpo' ((Turn.by a).app kp) c3')
    (hs : SourceTurned (Turn.by a) kp te tm te' tm')
    (hL : List.Forall₂ (fun l l' => l.Corresponds (fun f f' => f' = f) (fun f f' => f' = f) l' ∧ l'.depth = l.depth) Ls Ls')
    (hwl : 0 < wl) (hf : c3.poyntingFluxEnd = .ok f) (hf' : c3'.poyntingFluxEnd = .ok f') : f' = f := by
  obtain ⟨hodd, -⟩ := C25_specular_middle hl
  rw [Nat.odd_iff] at hodd
  have hk0 : 0 < 2 * Real.pi / wl := by have := Real.pi_pos; positivity
  let i0 : Fin M := ⟨(M - 1) / 2, by omega⟩
  have hfit : ∀ (e : Expansion M) (f f' : Form) (C C' : Matrix (Fin M) (Fin M) ℂ), f' = f →
      Permittivity lib.jv1 e f C → Permittivity lib.jv1 (e.rotate a) f' C' → ∀ r c, C' (id r) (id c) * 1 = 1 * C r c := by
    rintro e _ x C C' rfl hC hC' r c
    have : Permittivity lib.jv1 e x C' := by
      cases x <;> exact hC'
    rw [permittivity_unique hC this, mul_one, one_mul]; rfl
  have hd1 : ∀ r : Fin M, ‖(1 : ℂ)‖ = 1 := fun _ => norm_one
  obtain ⟨k1, k3, k4⟩ := twisted_carry he hse hse' h h' hwl hwl hf hf' (f := pairMap id id)
    (d := pairPhase (fun _ => 1) fun _ => 1) (o := Turn.by a) (pairMap_inj Function.injective_id Function.injective_id)
    (pairPhase_norm hd1 hd1)
    (fun b => by
      obtain ⟨r, i, rfl⟩ := exists_pairPos b
      rw [pairMap_id]
      simp only [id, orderKx, orderKy, add_g hse, add_g hse', Expansion.rotate, rotate2, Turn.app, Turn.by,
        Prod.mk.injEq]
      constructor <;> ring)
    (by
      have := (Turn.by a).norm_app kp
      simp only [div_pow, ← add_div, this])
    (hL.imp fun l l' hl => ⟨by rw [hl.2], fun C C' hC hC' =>
      twisted_fit Function.bijective_id Function.bijective_id (hfit lhs) (hfit rhs) hl.1 hC hC'⟩)
    (fun inc inc' hpos hi hi' => incident_turn hs hk0 hpos hi hi'
      (pairMap_inj Function.injective_id Function.injective_id) (pairPhase_norm hd1 hd1)
      (pairPos i0 i0) ((pairPos_mid hodd i0 i0).2 ⟨rfl, rfl⟩)
      (by rw [pairMap_pos]; exact (pairPos_mid hodd i0 i0).2 ⟨rfl, rfl⟩))
  rw [pairMap_id] at k1
  exact fluxes_ext k1 k3 k4

end

section
variable {P Q : ℕ} {lib : NumLib} {tag tag' tl tl' tr tr' : ℕ} {lat lat2 : R2 × R2} {lhs rhs lhs' rhs' : Expansion (P * Q)}
  {se se' : SumExpansion (P * Q)} {c c3 c' c3' : Crystal ((P * Q) * (P * Q))} {stack stack' : List String}
  {m m' : Bool ⊕ List Bool} {Ls Ls' : List (TwistedLayer (P * Q))} {er et wl : ℝ} {te tm te' tm' : ℂ}
  {theta phi theta' phi' : ℝ} {kpo kpo' : Option (ℂ × ℂ)} {kp : R2} {f f' : Crystal.Fluxes ((P * Q) * (P * Q))}

/-- **C93.** The device of two lattices may be turned or mirrored as a whole, with its source, the vectors of each
lattice being listed with either sign and its pixmaps flipped accordingly: the orders are exchanged as their directions
are, and carry the same powers. -/
theorem C93_turned {o : Turn} {p q p2 q2 : Bool} {K L K2 L2 : ℕ} (he : ∀ n, EigContract (lib.eig n))
    (hl : Expansion.make tl (P, Q) lat = .ok lhs) (hr : Expansion.make tr (P, Q) lat2 = .ok rhs)
    (hl' : Expansion.make tl' (P, Q) (turnedLattice o p q lat) = .ok lhs')
    (hr' : Expansion.make tr' (P, Q) (turnedLattice o p2 q2 lat2) = .ok rhs')
    (hse : lhs.add tag rhs = .ok se) (hse' : lhs'.add tag' rhs' = .ok se')
    (h : TwistedRun lib se c stack m Ls er et wl te tm theta phi kpo kp c3)
    (h' : TwistedRun lib se' c' stack' m' Ls' er et wl te' tm' theta' phi' kpo' (o.app kp) c3')
    (hs : SourceTurned o kp te tm te' tm')
    (hL : List.Forall₂ (fun l l' => l.Corresponds (Form.Flipped p q K L) (Form.Flipped p2 q2 K2 L2) l' ∧
      l'.depth = l.depth) Ls Ls')
    (hwl : 0 < wl) (hf : c3.poyntingFluxEnd = .ok f) (hf' : c3'.poyntingFluxEnd = .ok f') :
    (∀ (r r2 : Fin P) (s s2 : Fin Q),
      f'.Rg (pairPos (orderPos (flipAt p r) (flipAt q s)) (orderPos (flipAt p2 r2) (flipAt q2 s2))) =
        f.Rg (pairPos (orderPos r s) (orderPos r2 s2)) ∧
      f'.Tg (pairPos (orderPos (flipAt p r) (flipAt q s)) (orderPos (flipAt p2 r2) (flipAt q2 s2))) =
        f.Tg (pairPos (orderPos r s) (orderPos r2 s2))) ∧ f'.R = f.R ∧ f'.T = f.T := by
  obtain ⟨hP, hQ, hpw, hb, hg⟩ := make_order hl
  obtain ⟨-, -, hpw', hb', hg'⟩ := make_order hl'
  obtain ⟨-, -, hpw2, hb2, hg2⟩ := make_order hr
  obtain ⟨-, -, hpw2', hb2', hg2'⟩ := make_order hr'
  simp only at hP hQ hg hg' hg2 hg2'
  obtain ⟨hodd, -⟩ := C25_specular_middle (.make hl)
  rw [Nat.odd_iff] at hodd
  have hg1 : ∀ b, lhs'.g (flipOrder P Q p q b) = o.app (lhs.g b) := by
    intro b
    obtain ⟨r, s, rfl⟩ := exists_orderPos b
    rw [flipOrder_pos, hg, hg', flipAt_mid p hP, flipAt_mid q hQ, turned_reciproc hb hb', turned_latticeVec]
  have hg2 : ∀ b, rhs'.g (flipOrder P Q p2 q2 b) = o.app (rhs.g b) := by
    intro b
    obtain ⟨r, s, rfl⟩ := exists_orderPos b
    rw [flipOrder_pos, hg2, hg2', flipAt_mid p2 hP, flipAt_mid q2 hQ, turned_reciproc hb2 hb2', turned_latticeVec]
  have hk0 : 0 < 2 * Real.pi / wl := by have := Real.pi_pos; positivity
  have hd : ∀ (p q : Bool) (K L : ℕ) (b : Fin (P * Q)), ‖flipPhases P Q p q K L b‖ = 1 := by
    intro p q K L b; rw [flipPhases, norm_mul, flipPhase_norm, flipPhase_norm, one_mul]
  let i0 : Fin (P * Q) := orderPos ⟨(P - 1) / 2, by omega⟩ ⟨(Q - 1) / 2, by omega⟩
  have hi0 : (i0 : ℕ) = (P * Q - 1) / 2 := (orderPos_mid hP hQ).2 ⟨rfl, rfl⟩
  have hfix : ∀ p q : Bool, flipOrder P Q p q i0 = i0 := by
    intro p q
    refine Fin.ext ?_
    rw [hi0, flipOrder_pos]
    refine (orderPos_mid hP hQ).2 ⟨?_, ?_⟩
    · have := flipAt_mid p hP ⟨(P - 1) / 2, by omega⟩
      simp only [sub_self] at this
      have h0 : flipInt p 0 = 0 := by cases p <;> rfl
      rw [h0] at this
      omega
    · have := flipAt_mid q hQ ⟨(Q - 1) / 2, by omega⟩
      simp only [sub_self] at this
      have h0 : flipInt q 0 = 0 := by cases q <;> rfl
      rw [h0] at this
      omega
  have hinj := pairMap_inj (flipOrder_inj (P := P) (Q := Q) p q) (flipOrder_inj (P := P) (Q := Q) p2 q2)
  have hnorm := pairPhase_norm (hd p q K L) (hd p2 q2 K2 L2)
  obtain ⟨k1, k3, k4⟩ := twisted_carry he hse hse' h h' hwl hwl hf hf' (f := pairMap (flipOrder P Q p q) (flipOrder P Q p2 q2))
    (d := pairPhase (flipPhases P Q p q K L) (flipPhases P Q p2 q2 K2 L2)) (o := o) hinj hnorm
    (fun b => by
      obtain ⟨r, i, rfl⟩ := exists_pairPos b
      rw [pairMap_pos]
      simp only [orderKx, orderKy, add_g hse, add_g hse', hg1, hg2, Turn.app, Prod.mk.injEq]
      constructor <;> ring)
    (by
      have := o.norm_app kp
      simp only [div_pow, ← add_div, this])
    (hL.imp fun l l' hl => ⟨by rw [hl.2], fun C C' hC hC' =>
      twisted_fit (flipOrder_bij p q) (flipOrder_bij p2 q2)
        (fun _ _ _ _ hf h h' => flipped_entries hpw hpw' hf h h')
        (fun _ _ _ _ hf h h' => flipped_entries hpw2 hpw2' hf h h') hl.1 hC hC'⟩)
    (fun inc inc' hpos hi hi' => incident_turn hs hk0 hpos hi hi' hinj hnorm
      (pairPos i0 i0) ((pairPos_mid hodd i0 i0).2 ⟨hi0, hi0⟩)
      (by rw [pairMap_pos, hfix, hfix]; exact (pairPos_mid hodd i0 i0).2 ⟨hi0, hi0⟩))
  refine ⟨fun r r2 s s2 => ?_, k3, k4⟩
  have := k1 (pairPos (orderPos r s) (orderPos r2 s2))
  rwa [pairMap_pos, flipOrder_pos, flipOrder_pos] at this

/-- **C93.** The device of two lattices, the wavelength and the source may be scaled together: no power changes. -/
theorem C93_scaled {s : ℝ} (he : ∀ n, EigContract (lib.eig n)) (hs : 0 < s)
    (hl : Expansion.make tl (P, Q) lat = .ok lhs) (hr : Expansion.make tr (P, Q) lat2 = .ok rhs)
    (hl' : Expansion.make tl' (P, Q) (scaledLattice s lat) = .ok lhs')
    (hr' : Expansion.make tr' (P, Q) (scaledLattice s lat2) = .ok rhs')
    (hp : Periods lhs.reciprocal) (hp' : Periods lhs'.reciprocal)
    (hp2 : Periods rhs.reciprocal) (hp2' : Periods rhs'.reciprocal)
    (hse : lhs.add tag rhs = .ok se) (hse' : lhs'.add tag' rhs' = .ok se')
    (h : TwistedRun lib se c stack m Ls er et wl te tm theta phi kpo kp c3)
    (h' : TwistedRun lib se' c' stack' m' Ls' er et (s * wl) te tm theta' phi' kpo' (kp.1 / s, kp.2 / s) c3')
    (hob : kp = (0, 0) ∨ ((1 / 10 ^ 8) ^ 2 ≤ kp.1 ^ 2 + kp.2 ^ 2 ∧ (1 / 10 ^ 8) ^ 2 ≤ (kp.1 / s) ^ 2 + (kp.2 / s) ^ 2))
    (hL : List.Forall₂ (fun l l' => l.Corresponds (fun f f' => f' = f.scale s) (fun f f' => f' = f.scale s) l' ∧
      l'.depth = s * l.depth) Ls Ls')
    (hwl : 0 < wl) (hf : c3.poyntingFluxEnd = .ok f) (hf' : c3'.poyntingFluxEnd = .ok f') : f' = f := by
  have hen := enlarged_make hs hl hl'
  have hen2 := enlarged_make hs hr hr'
  have hpi := Real.pi_pos
  have hsn := hs.ne'
  have hwl' : 0 < s * wl := mul_pos hs hwl
  have h0 : ∀ {t : ℕ} {x : R2 × R2} {e : Expansion (P * Q)}, Expansion.make t (P, Q) x = .ok e → e.pw.1 ≠ 0 ∧ e.pw.2 ≠ 0 := by
    intro t x e hE
    obtain ⟨o1, o2, b, -, e⟩ := make_eq_ok.1 hE
    rw [e]
    constructor <;> simp only <;> omega
  obtain ⟨hodd, -⟩ := C25_specular_middle (.make hl)
  rw [Nat.odd_iff] at hodd
  simp only at hodd
  have z1 := h0 hl
  have hfit : ∀ {e e' : Expansion (P * Q)}, Enlarged s e e' → Periods e.reciprocal → Periods e'.reciprocal →
      e.pw.1 ≠ 0 ∧ e.pw.2 ≠ 0 → ∀ (f f' : Form) (C C' : Matrix (Fin (P * Q)) (Fin (P * Q)) ℂ), f' = f.scale s →
      Permittivity lib.jv1 e f C → Permittivity lib.jv1 e' f' C' → ∀ r c, C' (id r) (id c) * 1 = 1 * C r c := by
    rintro e e' hE h1 h2 h3 f _ C C' rfl hC hC' r c
    rw [permittivity_scale hs hE h1 h2 h3 hC hC', mul_one, one_mul]; rfl
  have hd1 : ∀ r : Fin (P * Q), ‖(1 : ℂ)‖ = 1 := fun _ => norm_one
  have hinj := pairMap_inj (M := P * Q) Function.injective_id Function.injective_id
  have hnorm := pairPhase_norm hd1 hd1
  have x1 : kp.1 / s / (2 * Real.pi / (s * wl)) = kp.1 / (2 * Real.pi / wl) := by field_simp
  have x2 : kp.2 / s / (2 * Real.pi / (s * wl)) = kp.2 / (2 * Real.pi / wl) := by field_simp
  let i0 : Fin (P * Q) := ⟨(P * Q - 1) / 2, by omega⟩
  obtain ⟨k1, k3, k4⟩ := twisted_carry he hse hse' h h' hwl hwl' hf hf' (f := pairMap id id)
    (d := pairPhase (fun _ => 1) fun _ => 1) (o := Turn.id) hinj hnorm
    (fun b => by
      obtain ⟨r, i, rfl⟩ := exists_pairPos b
      rw [pairMap_id, Turn.id_app]
      simp only [id, orderKx, orderKy, add_g hse, add_g hse', hen.g, hen2.g, Prod.mk.injEq]
      constructor <;> field_simp)
    (by rw [x1, x2])
    (hL.imp fun l l' hl => ⟨by rw [hl.2]; field_simp, fun C C' hC hC' =>
      twisted_fit Function.bijective_id Function.bijective_id (hfit hen hp hp' z1) (hfit hen2 hp2 hp2' (h0 hr)) hl.1 hC hC'⟩)
    (fun inc inc' hpos hi hi' => by
      have hii : inc' = inc := by
        have hpos' : 0 < er - (kp.1 / s / (2 * Real.pi / (s * wl))) ^ 2 - (kp.2 / s / (2 * Real.pi / (s * wl))) ^ 2 := by
          rw [x1, x2]; exact hpos
        have d1 := incident_direction (by positivity) hpos hi (hob.imp (fun h => by rw [h]; exact ⟨rfl, rfl⟩) (·.1))
        have d2 := incident_direction (by positivity) hpos' hi'
          (hob.imp (fun h => by rw [h]; exact ⟨by simp, by simp⟩) (·.2))
        simp only [x1, x2] at d2
        rcases d1 with ⟨z1, z2, d1⟩ | ⟨p1, d1⟩ <;> rcases d2 with ⟨z1', z2', d2⟩ | ⟨p2, d2⟩
        · rw [d1, d2]
        · rw [z1, z2] at p2; simp at p2
        · rw [z1', z2'] at p1; simp at p1
        · rw [d1, d2]
      rw [hii]
      exact incident_phase hi hinj hnorm (pairPos i0 i0) ((pairPos_mid hodd i0 i0).2 ⟨rfl, rfl⟩) (pairMap_pos _ _ _ _))
  rw [pairMap_id] at k1
  exact fluxes_ext k1 k3 k4

end

/-! ### Non-vacuity -/

/-- Non-vacuity of C74 for islands: a bar covering half of the unit cell, moved by a tenth and a third of it. -/
example : ∃ (lib : NumLib) (c c' c3 c3' : Crystal 1) (Ls Ls' : List (Layer 1)) (f f' : Crystal.Fluxes 1),
    EigContract (lib.eig 1) ∧ Built c.expansion ∧ c'.expansion = c.expansion ∧
    (Displacement.vector (1 / 10, 1 / 3)).Fits c.expansion ∧
    DeviceRun lib c ["a"] (.inl true) Ls 1 1 1 1 0 0 0 (some (0, 0)) (0, 0) c3 ∧
    DeviceRun lib c' ["a"] (.inl true) Ls' 1 1 1 1 0 0 0 (some (0, 0)) (0, 0) c3' ∧
    List.Forall₂ (fun l l' => l.form.Moved (1 / 10, 1 / 3) l'.form ∧ l'.depth = l.depth) Ls Ls' ∧
    Ls.map Layer.form = [.analytical [⟨.rectangle 0 0 (0 + 1 / 2) (0 + 1), 7⟩] 1] ∧
    c3.poyntingFluxEnd = .ok f ∧ c3'.poyntingFluxEnd = .ok f' := by
  obtain ⟨r, -, hr⟩ := halfBar_solve 0 0
  obtain ⟨r', -, hr'⟩ := halfBar_solve (1 / 10) (1 / 3)
  have hg : ∀ i, 1 - orderKx exampleExpansion (0, 0) 1 i ^ 2 - orderKy exampleExpansion (0, 0) 1 i ^ 2 ≠ 0 := by
    intro i; simp [orderKx, orderKy, exampleExpansion]
  have hpol : polNorm (1 : ℂ) 0 ≠ 0 := by simp [polNorm]
  obtain ⟨c3, st, h1, -, -, h2⟩ := oneLayer_run plateLib exampleExpansion one_pos hg 1 0 (theta := 0) (phi := 0)
    (kpo := some (0, 0)) (by simp [Crystal.orDefault]) (f := halfBar 0 0) (by simp [Form.isLayer, halfBar])
    (by simpa using hr) true
  obtain ⟨c3', st', h1', -, -, h2'⟩ := oneLayer_run plateLib exampleExpansion one_pos hg 1 0 (theta := 0) (phi := 0)
    (kpo := some (0, 0)) (by simp [Crystal.orDefault]) (f := halfBar (1 / 10) (1 / 3)) (by simp [Form.isLayer, halfBar])
    (by simpa using hr') true
  obtain ⟨f, hf⟩ := h2 one_pos hpol (by simp) (.inl ⟨rfl, rfl⟩)
  obtain ⟨f', hf'⟩ := h2' one_pos hpol (by simp) (.inl ⟨rfl, rfl⟩)
  exact ⟨plateLib, oneLayer exampleExpansion (halfBar 0 0) _, oneLayer exampleExpansion (halfBar (1 / 10) (1 / 3)) _,
    c3, c3', _, _, f, f', plateLib_contract _, exampleExpansion_built, rfl, ⟨dotExpansion_periods 0, .inl rfl⟩, h1, h1',
    .cons ⟨by simp only [Form.Moved, halfBar, List.map, Shape.move]; norm_num, rfl⟩ .nil, rfl, hf, hf'⟩

/-- Non-vacuity of C93: a pixmap of two bars in one lattice, rolled by half a period, and a bar covering half of the
unit cell in the other lattice, moved by a tenth and a third of it. -/
example : ∃ (lib : NumLib) (lhs rhs : Expansion 1) (se : SumExpansion 1) (c c' c3 c3' : Crystal (1 * 1))
    (Ls Ls' : List (TwistedLayer 1)) (f f' : Crystal.Fluxes (1 * 1)),
    (∀ n, EigContract (lib.eig n)) ∧ Built lhs ∧ Built rhs ∧ lhs.add 2 rhs = .ok se ∧
    (Displacement.fractions (1 / 2, 0)).Fits lhs ∧ (Displacement.vector (1 / 10, 1 / 3)).Fits rhs ∧
    TwistedRun lib se c ["a", "b"] (.inl true) Ls 1 1 1 1 0 0 0 none (0, 0) c3 ∧
    TwistedRun lib se c' ["a", "b"] (.inl true) Ls' 1 1 1 1 0 0 0 none (0, 0) c3' ∧
    List.Forall₂ (fun l l' => l.Corresponds (Form.Displaced (.fractions (1 / 2, 0)))
      (Form.Displaced (.vector (1 / 10, 1 / 3))) l' ∧ l'.depth = l.depth) Ls Ls' ∧
    Ls = [.first { expansion := lhs, form := .fft barPix, depth := 1 / 4 },
      .second { expansion := rhs, form := .analytical [⟨.rectangle 0 0 (0 + 1 / 2) (0 + 1), 7⟩] 1, depth := 1 / 4 }] ∧
    c3.poyntingFluxEnd = .ok f ∧ c3'.poyntingFluxEnd = .ok f' := by
  obtain ⟨se, hse⟩ := add_ok 2 (dotExpansion 0) (dotExpansion 1) rfl rfl
  have hb : ∃ r : Solved 1, r.S = (⟨0, -1, -1, 0⟩ : SMat (Fin 1 ⊕ Fin 1)) ∧
      (Form.fft barPix).solve plateLib exampleExpansion (1 / 4) (0, 0) 1 = .ok r := halves_solve (by norm_num)
  have hb' : ∃ r : Solved 1, r.S = (⟨0, -1, -1, 0⟩ : SMat (Fin 1 ⊕ Fin 1)) ∧
      (Form.fft (barPix.roll 1 0)).solve plateLib exampleExpansion (1 / 4) (0, 0) 1 = .ok r :=
    halves_solve ((by norm_num : (5 : ℂ) + 3 = 8))
  obtain ⟨c, c3, f, h1, hf⟩ := dots_run (by simp [Form.isLayer]) (by simp [Form.isLayer, halfBar]) hb
    (halfBar_solve 0 0) hse
  obtain ⟨c', c3', f', h1', hf'⟩ := dots_run (by simp [Form.isLayer]) (by simp [Form.isLayer, halfBar]) hb'
    (halfBar_solve (1 / 10) (1 / 3)) hse
  exact ⟨plateLib, _, _, se, c, c', c3, c3', _, _, f, f', plateLib_contract, .make (dotExpansion_make 0),
    .make (dotExpansion_make 1), hse, trivial, ⟨dotExpansion_periods 1, .inl rfl⟩, h1, h1',
    .cons ⟨⟨1, 0, by norm_num [barPix], by norm_num, rfl⟩, rfl⟩
      (.cons ⟨by
        simp only [TwistedLayer.Corresponds, Form.Displaced, formLayer, Form.Moved, halfBar, List.map, Shape.move]
        norm_num, rfl⟩ .nil), rfl, hf, hf'⟩

/-- Square lattices of periods `a` and `a / 2`, at wavelength `4 a`. -/
theorem square_pair {a : ℝ} (ha : 0 < a) {i j : ℤ × ℤ} :
    1 - ((2 * Real.pi / a * i.1 + 2 * Real.pi / (a / 2) * j.1) / (2 * Real.pi / (4 * a))) ^ 2 -
      ((2 * Real.pi / a * i.2 + 2 * Real.pi / (a / 2) * j.2) / (2 * Real.pi / (4 * a))) ^ 2 ≠ (0 : ℝ) := by
  have hpi := Real.pi_pos
  have e : ∀ m n : ℤ, (2 * Real.pi / a * m + 2 * Real.pi / (a / 2) * n) / (2 * Real.pi / (4 * a)) =
      ((4 * (m + 2 * n) : ℤ) : ℝ) := by
    intro m n; push_cast; field_simp
  rw [e, e]
  intro h0
  have h1 : (1 - (4 * (i.1 + 2 * j.1)) ^ 2 - (4 * (i.2 + 2 * j.2)) ^ 2 : ℤ) = 0 := by exact_mod_cast h0
  have h2 : 16 * ((i.1 + 2 * j.1) ^ 2 + (i.2 + 2 * j.2) ^ 2) = 1 := by linarith
  omega

/-- Non-vacuity of C93: empty layers of two square lattices with 3 × 3 orders each, listed in either order. -/
example : ∃ (lib : NumLib) (lhs rhs : Expansion 9) (se se' : SumExpansion 9) (c c' c3 c3' : Crystal (9 * 9))
    (Ls : List (TwistedLayer 9)) (f f' : Crystal.Fluxes (9 * 9)),
    (∀ n, EigContract (lib.eig n)) ∧ Built lhs ∧ lhs.add 2 rhs = .ok se ∧ rhs.add 3 lhs = .ok se' ∧
    TwistedRun lib se c ["a", "b"] (.inl true) Ls 1 1 4 1 0 0 0 none (0, 0) c3 ∧
    TwistedRun lib se' c' ["a", "b"] (.inl true) (Ls.map TwistedLayer.swap) 1 1 4 1 0 0 0 none (0, 0) c3' ∧ Ls.length = 2 ∧
    c3.poyntingFluxEnd = .ok f ∧ c3'.poyntingFluxEnd = .ok f' := by
  obtain ⟨l, hl, tl, pl, gl⟩ := square_lattice 0 one_ne_zero
  obtain ⟨r, hr, tr, pr, gr⟩ := square_lattice 1 (a := 1 / 2) (by norm_num)
  obtain ⟨se, hse⟩ := add_ok 2 l r (by rw [pl]; rfl) (by rw [pl]; rfl)
  obtain ⟨se', hse'⟩ := add_ok 3 r l (by rw [pr]; rfl) (by rw [pr]; rfl)
  obtain ⟨c, c3, f, h1, hf⟩ := vacuum_twisted plateLib (by rw [tl, tr]; simp) hse (1 / 3) (1 / 5) (wl := 4) (by norm_num)
    (fun i j => by rw [gl, gr]; simpa using square_pair one_pos (i := orderAt (3, 3) i) (j := orderAt (3, 3) j))
  obtain ⟨c', c3', f', h1', hf'⟩ := vacuum_twisted_rev plateLib (by rw [tl, tr]; simp) hse' (1 / 5) (1 / 3) (wl := 4)
    (by norm_num) (fun i j => by
      rw [gl, gr, add_comm (2 * Real.pi / (1 / 2) * _), add_comm (2 * Real.pi / (1 / 2) * _)]
      simpa using square_pair one_pos (i := orderAt (3, 3) j) (j := orderAt (3, 3) i))
  exact ⟨plateLib, l, r, se, se', c, c', c3, c3', _, f, f', plateLib_contract, .make hl, hse, hse', h1, h1', rfl, hf, hf'⟩

/-- Non-vacuity of C93: the same layers, both lattices turned by half a turn. -/
example : ∃ (lib : NumLib) (lhs rhs : Expansion 9) (se se' : SumExpansion 9) (c c' c3 c3' : Crystal (9 * 9))
    (Ls Ls' : List (TwistedLayer 9)) (f f' : Crystal.Fluxes (9 * 9)),
    (∀ n, EigContract (lib.eig n)) ∧ Built lhs ∧ lhs.add 2 rhs = .ok se ∧
    (lhs.rotate Real.pi).add 3 (rhs.rotate Real.pi) = .ok se' ∧
    TwistedRun lib se c ["a", "b"] (.inl true) Ls 1 1 4 1 0 0 0 none (0, 0) c3 ∧
    TwistedRun lib se' c' ["a", "b"] (.inl true) Ls' 1 1 4 1 0 0 0 none ((Turn.by Real.pi).app (0, 0)) c3' ∧
    SourceTurned (Turn.by Real.pi) (0, 0) 1 0 1 0 ∧
    List.Forall₂ (fun l l' => l.Corresponds (fun f f' => f' = f) (fun f f' => f' = f) l' ∧ l'.depth = l.depth) Ls Ls' ∧
    Ls.length = 2 ∧ c3.poyntingFluxEnd = .ok f ∧ c3'.poyntingFluxEnd = .ok f' := by
  obtain ⟨l, hl, tl, pl, gl⟩ := square_lattice 0 one_ne_zero
  obtain ⟨r, hr, tr, pr, gr⟩ := square_lattice 1 (a := 1 / 2) (by norm_num)
  obtain ⟨se, hse⟩ := add_ok 2 l r (by rw [pl]; rfl) (by rw [pl]; rfl)
  obtain ⟨se', hse'⟩ := add_ok 3 (l.rotate Real.pi) (r.rotate Real.pi) (by simp only [Expansion.rotate]; rw [pl]; rfl)
    (by simp only [Expansion.rotate]; rw [pl]; rfl)
  have hne : l.tag ≠ r.tag := by rw [tl, tr]; simp
  have hg : ∀ i j, 1 - (((l.g i).1 + (r.g j).1) / (2 * Real.pi / 4)) ^ 2 -
      (((l.g i).2 + (r.g j).2) / (2 * Real.pi / 4)) ^ 2 ≠ (0 : ℝ) := by
    intro i j
    rw [gl, gr]; simpa using square_pair one_pos (i := orderAt (3, 3) i) (j := orderAt (3, 3) j)
  obtain ⟨c, c3, f, h1, hf⟩ := vacuum_twisted plateLib hne hse (1 / 3) (1 / 5) (wl := 4) (by norm_num) hg
  obtain ⟨c', c3', f', h1', hf'⟩ := vacuum_twisted plateLib (lhs := l.rotate Real.pi) (rhs := r.rotate Real.pi) hne hse'
    (1 / 3) (1 / 5) (wl := 4) (by norm_num) (fun i j => by
      have := hg i j
      simp only [Expansion.rotate, rotate2, Real.cos_pi, Real.sin_pi]
      rw [show -1 * (l.g i).1 - 0 * (l.g i).2 + (-1 * (r.g j).1 - 0 * (r.g j).2) = -((l.g i).1 + (r.g j).1) by ring,
        show 0 * (l.g i).1 + -1 * (l.g i).2 + (0 * (r.g j).1 + -1 * (r.g j).2) = -((l.g i).2 + (r.g j).2) by ring,
        neg_div, neg_div, neg_sq, neg_sq]
      exact this)
  refine ⟨plateLib, l, r, se, se', c, c', c3, c3', _,
    [.first (formLayer (l.rotate Real.pi) (.uniform 1) (1 / 3)), .second (formLayer (r.rotate Real.pi) (.uniform 1) (1 / 5))],
    f, f', plateLib_contract, .make hl, hse, hse', h1,
    ?_, ⟨-1, by simp, .inl ⟨rfl, by simp [Turn.by], by simp [Turn.by]⟩⟩, .cons ⟨rfl, rfl⟩ (.cons ⟨rfl, rfl⟩ .nil), rfl,
    hf, hf'⟩
  rw [show (Turn.by Real.pi).app (0, 0) = (0, 0) by simp [Turn.app]]
  exact h1'

/-- The mirror image across the second axis. -/
def mirrorTurn : Turn := ⟨-1, 0, -1, by norm_num, by norm_num⟩

/-- Non-vacuity of C93: the same layers in the mirror, the first vector of each lattice being listed with the opposite
sign. -/
example : ∃ (lib : NumLib) (lhs rhs lhs' rhs' : Expansion (3 * 3)) (se se' : SumExpansion (3 * 3))
    (c c' c3 c3' : Crystal ((3 * 3) * (3 * 3))) (Ls Ls' : List (TwistedLayer (3 * 3))) (f f' : Crystal.Fluxes ((3 * 3) * (3 * 3))),
    (∀ n, EigContract (lib.eig n)) ∧ Expansion.make 0 (3, 3) ((1, 0), (0, 1)) = .ok lhs ∧
    Expansion.make 1 (3, 3) ((1 / 2, 0), (0, 1 / 2)) = .ok rhs ∧
    Expansion.make 0 (3, 3) (turnedLattice mirrorTurn true false ((1, 0), (0, 1))) = .ok lhs' ∧
    Expansion.make 1 (3, 3) (turnedLattice mirrorTurn true false ((1 / 2, 0), (0, 1 / 2))) = .ok rhs' ∧
    lhs.add 2 rhs = .ok se ∧ lhs'.add 2 rhs' = .ok se' ∧
    TwistedRun lib se c ["a", "b"] (.inl true) Ls 1 1 4 1 0 0 0 none (0, 0) c3 ∧
    TwistedRun lib se' c' ["a", "b"] (.inl true) Ls' 1 1 4 1 0 0 0 none (mirrorTurn.app (0, 0)) c3' ∧
    SourceTurned mirrorTurn (0, 0) 1 0 1 0 ∧
    List.Forall₂ (fun l l' => l.Corresponds (Form.Flipped true false 0 0) (Form.Flipped true false 0 0) l' ∧
      l'.depth = l.depth) Ls Ls' ∧
    Ls.length = 2 ∧ c3.poyntingFluxEnd = .ok f ∧ c3'.poyntingFluxEnd = .ok f' := by
  obtain ⟨l, hl, tl, pl, gl⟩ := square_lattice 0 one_ne_zero
  obtain ⟨r, hr, tr, pr, gr⟩ := square_lattice 1 (a := 1 / 2) (by norm_num)
  obtain ⟨se, hse⟩ := add_ok 2 l r (by rw [pl]; rfl) (by rw [pl]; rfl)
  obtain ⟨c, c3, f, h1, hf⟩ := vacuum_twisted plateLib (by rw [tl, tr]; simp) hse (1 / 3) (1 / 5) (wl := 4) (by norm_num)
    (fun i j => by rw [gl, gr]; simpa using square_pair one_pos (i := orderAt (3, 3) i) (j := orderAt (3, 3) j))
  have hm : ∀ a : ℝ, turnedLattice mirrorTurn true false ((a, 0), (0, a)) = ((a, 0), (0, a)) := by
    intro a; simp [turnedLattice, mirrorTurn, Turn.app, flipSign]
  exact ⟨plateLib, l, r, l, r, se, se, c, c, c3, c3, _,
    [.first (formLayer l (.uniform 1) (1 / 3)), .second (formLayer r (.uniform 1) (1 / 5))], f, f, plateLib_contract, hl, hr, by rw [hm]; exact hl,
    by rw [hm]; exact hr, hse, hse, h1, by
      rw [show mirrorTurn.app (0, 0) = (0, 0) by simp [Turn.app]]
      exact h1, ⟨-1, by simp, .inl ⟨rfl, by simp [mirrorTurn], by simp [mirrorTurn]⟩⟩,
    .cons ⟨rfl, rfl⟩ (.cons ⟨rfl, rfl⟩ .nil), rfl, hf, hf⟩

/-- Non-vacuity of C93: the same layers twice as large, at twice the wavelength. -/
example : ∃ (lib : NumLib) (lhs rhs lhs' rhs' : Expansion (3 * 3)) (se se' : SumExpansion (3 * 3))
    (c c' c3 c3' : Crystal ((3 * 3) * (3 * 3))) (Ls Ls' : List (TwistedLayer (3 * 3))) (f f' : Crystal.Fluxes ((3 * 3) * (3 * 3))),
    (∀ n, EigContract (lib.eig n)) ∧ Expansion.make 0 (3, 3) ((1, 0), (0, 1)) = .ok lhs ∧
    Expansion.make 1 (3, 3) ((1 / 2, 0), (0, 1 / 2)) = .ok rhs ∧
    Expansion.make 0 (3, 3) (scaledLattice 2 ((1, 0), (0, 1))) = .ok lhs' ∧
    Expansion.make 1 (3, 3) (scaledLattice 2 ((1 / 2, 0), (0, 1 / 2))) = .ok rhs' ∧
    Periods lhs.reciprocal ∧ Periods lhs'.reciprocal ∧ Periods rhs.reciprocal ∧ Periods rhs'.reciprocal ∧
    lhs.add 2 rhs = .ok se ∧ lhs'.add 2 rhs' = .ok se' ∧
    TwistedRun lib se c ["a", "b"] (.inl true) Ls 1 1 4 1 0 0 0 none (0, 0) c3 ∧
    TwistedRun lib se' c' ["a", "b"] (.inl true) Ls' 1 1 (2 * 4) 1 0 0 0 none (0 / 2, 0 / 2) c3' ∧
    List.Forall₂ (fun l l' => l.Corresponds (fun f f' => f' = f.scale 2) (fun f f' => f' = f.scale 2) l' ∧
      l'.depth = 2 * l.depth) Ls Ls' ∧
    Ls.length = 2 ∧ c3.poyntingFluxEnd = .ok f ∧ c3'.poyntingFluxEnd = .ok f' := by
  obtain ⟨l, hl, tl, pl, gl⟩ := square_lattice 0 one_ne_zero
  obtain ⟨r, hr, tr, pr, gr⟩ := square_lattice 1 (a := 1 / 2) (by norm_num)
  obtain ⟨l', hl', tl', pl', gl'⟩ := square_lattice 0 (a := 2) (by norm_num)
  obtain ⟨r', hr', tr', pr', gr'⟩ := square_lattice 1 one_ne_zero
  obtain ⟨se, hse⟩ := add_ok 2 l r (by rw [pl]; rfl) (by rw [pl]; rfl)
  obtain ⟨se', hse'⟩ := add_ok 2 l' r' (by rw [pl']; rfl) (by rw [pl']; rfl)
  obtain ⟨c, c3, f, h1, hf⟩ := vacuum_twisted plateLib (by rw [tl, tr]; simp) hse (1 / 3) (1 / 5) (wl := 4) (by norm_num)
    (fun i j => by rw [gl, gr]; simpa using square_pair one_pos (i := orderAt (3, 3) i) (j := orderAt (3, 3) j))
  obtain ⟨c', c3', f', h1', hf'⟩ := vacuum_twisted plateLib (by rw [tl', tr']; simp) hse' (2 * (1 / 3)) (2 * (1 / 5))
    (wl := 2 * 4) (by norm_num) (fun i j => by
      rw [gl', gr']
      have := square_pair (a := 2) (by norm_num) (i := orderAt (3, 3) i) (j := orderAt (3, 3) j)
      convert this using 5 <;> norm_num)
  have hp : ∀ {t : ℕ} {a : ℝ} {e : Expansion (3 * 3)}, 0 < a → a ≤ 2 → Expansion.make t (3, 3) ((a, 0), (0, a)) = .ok e →
      Periods e.reciprocal := by
    intro t a e ha ha2 he
    obtain ⟨-, -, b, hb, rfl⟩ := make_eq_ok.1 he
    obtain ⟨-, rfl⟩ := reciproc_eq_ok.1 hb
    have hpi := Real.two_le_pi
    have key : ∀ m : ℤ, m ≠ 0 → 1 / 10 ^ 8 < |(m : ℝ) * (2 * Real.pi / a)| := by
      intro m hm
      rw [abs_mul, abs_of_pos (by positivity : 0 < 2 * Real.pi / a)]
      have h1 : (1 : ℝ) ≤ |(m : ℝ)| := by exact_mod_cast Int.one_le_abs hm
      have h2 : 2 ≤ 2 * Real.pi / a := by rw [le_div_iff₀ ha]; nlinarith
      nlinarith
    intro mn
    have e1 : a * (2 * Real.pi / (a * a - 0)) = 2 * Real.pi / a := by rw [sub_zero]; field_simp
    simp only [neg_zero, zero_mul, mul_zero, add_zero, zero_add, e1]
    by_cases h1 : mn.1 = 0
    · by_cases h2 : mn.2 = 0
      · exact Or.inl (by simp [h1, h2])
      · exact Or.inr (Or.inr (key _ h2))
    · exact Or.inr (Or.inl (key _ h1))
  refine ⟨plateLib, l, r, l', r', se, se', c, c', c3, c3', _,
    [.first (formLayer l' (.uniform 1) (2 * (1 / 3))), .second (formLayer r' (.uniform 1) (2 * (1 / 5)))], f, f', plateLib_contract, hl, hr, ?_, ?_,
    hp one_pos (by norm_num) hl, hp two_pos le_rfl hl', hp (by norm_num) (by norm_num) hr, hp one_pos (by norm_num) hr',
    hse, hse', h1, ?_, .cons ⟨rfl, rfl⟩ (.cons ⟨rfl, rfl⟩ .nil), rfl, hf, hf'⟩
  · simpa [scaledLattice] using hl'
  · simpa [scaledLattice] using hr'
  · simpa using h1'

end Khepri
