import Verif.Lemmas.Mix
import Verif.Lemmas.ExampleMirror

/-!
# Property C90: one device under several polarisations
-/

namespace Khepri

open Matrix

section
variable {P Q : ℕ} {lib : NumLib} {tag : ℕ} {lat : R2 × R2} {stack : List String}
  {m m' m1 m2 : Bool ⊕ List Bool} {er et wl : ℝ} {te tm te' tm' : ℂ} {theta phi theta' phi' theta1 phi1 theta2 phi2 : ℝ}
  {kpo kpo' kpo1 kpo2 : Option (ℂ × ℂ)} {kp : R2}

/-- **C90.** Unpolarised light: the sum of the powers for two orthogonal polarisations is the same for all such pairs,
in every order. -/
theorem C90_unpolarised {N : ℕ} {c c3 c3' c31 c32 : Crystal N} {Ls : List (Layer N)} (he : EigContract (lib.eig N))
    (h : DeviceRun lib c stack m Ls er et wl te tm theta phi kpo kp c3)
    (h' : DeviceRun lib c stack m' Ls er et wl te' tm' theta' phi' kpo' kp c3')
    (h1 : DeviceRun lib c stack m1 Ls er et wl 1 0 theta1 phi1 kpo1 kp c31)
    (h2 : DeviceRun lib c stack m2 Ls er et wl 0 1 theta2 phi2 kpo2 kp c32) (hwl : 0 < wl)
    (hort : te * star te' + tm * star tm' = 0) {F F' F1 F2 : Crystal.Fluxes N}
    (hF : c3.poyntingFluxEnd = .ok F) (hF' : c3'.poyntingFluxEnd = .ok F')
    (hF1 : c31.poyntingFluxEnd = .ok F1) (hF2 : c32.poyntingFluxEnd = .ok F2) :
    (∀ i, F.Rg i + F'.Rg i = F1.Rg i + F2.Rg i ∧ F.Tg i + F'.Tg i = F1.Tg i + F2.Tg i) ∧
      F.R + F'.R = F1.R + F2.R ∧ F.T + F'.T = F1.T + F2.T := by
  obtain ⟨Ms, S, inc1, inc2, hM, hpos, i1, i2, o1, o2⟩ := runs_pair he h1 h2 hwl hF1 hF2
  obtain ⟨ho, hi⟩ := run_mix he h hwl hF hM o1 i1 i2
  obtain ⟨ho', hi'⟩ := run_mix he h' hwl hF' hM o1 i1 i2
  have hp := (incident_eq_ok.1 hi).2.1
  have hp' := (incident_eq_ok.1 hi').2.1
  have each := outcome_mix o1 o2 ho ho' (polNorm_share_sum hp) (polNorm_share_sum hp') (by
    have hc : star ((polNorm te' tm' : ℝ) : ℂ) = polNorm te' tm' := Complex.conj_ofReal _
    rw [star_div₀, star_div₀, hc]
    have e : te / (polNorm te tm : ℂ) * (star te' / (polNorm te' tm' : ℂ)) +
        tm / (polNorm te tm : ℂ) * (star tm' / (polNorm te' tm' : ℂ)) =
        (te * star te' + tm * star tm') / ((polNorm te tm : ℂ) * (polNorm te' tm' : ℂ)) := by ring
    rw [e, hort, zero_div])
  refine ⟨each, ?_, ?_⟩
  · rw [ho.R, ho'.R, o1.R, o2.R, ← Finset.sum_add_distrib, ← Finset.sum_add_distrib]
    exact Finset.sum_congr rfl fun i _ => (each i).1
  · rw [ho.T, ho'.T, o1.T, o2.T, ← Finset.sum_add_distrib, ← Finset.sum_add_distrib]
    exact Finset.sum_congr rfl fun i _ => (each i).2

/-- **C90.** A device with a mirror plane, lit in that plane, does not mix the two polarisations: the reflectance and the
transmittance are the means of those for `te` and for `tm`, weighted by the intensities; so are the powers of the orders,
summed over the pairs that the mirror exchanges.  `o` is the mirror, which must leave the lattice as it is up to
the signs of its vectors (`p`, `q`), and the pixmaps must be their own flips along the vectors it reverses. -/
theorem C90_mirror {c c3 c31 c32 : Crystal (P * Q)} {Ls : List (Layer (P * Q))} {o : Turn} {p q : Bool} {K L : ℕ}
    (he : EigContract (lib.eig (P * Q))) (hE : Expansion.make tag (P, Q) lat = .ok c.expansion)
    (h : DeviceRun lib c stack m Ls er et wl te tm theta phi kpo kp c3)
    (h1 : DeviceRun lib c stack m1 Ls er et wl 1 0 theta1 phi1 kpo1 kp c31)
    (h2 : DeviceRun lib c stack m2 Ls er et wl 0 1 theta2 phi2 kpo2 kp c32) (hwl : 0 < wl)
    (ho : o.e = -1) (hlat : turnedLattice o p q lat = lat) (hkp : o.app kp = kp)
    (hob : (1 / 10 ^ 8) ^ 2 ≤ kp.1 ^ 2 + kp.2 ^ 2 ∨ (kp = (0, 0) ∧ o.s = 0))
    (hL : ∀ l ∈ Ls, l.form.Flipped p q K L l.form)
    {F F1 F2 : Crystal.Fluxes (P * Q)} (hF : c3.poyntingFluxEnd = .ok F) (hF1 : c31.poyntingFluxEnd = .ok F1)
    (hF2 : c32.poyntingFluxEnd = .ok F2) :
    (∀ (r : Fin P) (s : Fin Q),
      F.Rg (orderPos r s) + F.Rg (orderPos (flipAt p r) (flipAt q s)) =
        2 * (‖te‖ ^ 2 * F1.Rg (orderPos r s) + ‖tm‖ ^ 2 * F2.Rg (orderPos r s)) / (‖te‖ ^ 2 + ‖tm‖ ^ 2) ∧
      F.Tg (orderPos r s) + F.Tg (orderPos (flipAt p r) (flipAt q s)) =
        2 * (‖te‖ ^ 2 * F1.Tg (orderPos r s) + ‖tm‖ ^ 2 * F2.Tg (orderPos r s)) / (‖te‖ ^ 2 + ‖tm‖ ^ 2)) ∧
    F.R = (‖te‖ ^ 2 * F1.R + ‖tm‖ ^ 2 * F2.R) / (‖te‖ ^ 2 + ‖tm‖ ^ 2) ∧
    F.T = (‖te‖ ^ 2 * F1.T + ‖tm‖ ^ 2 * F2.T) / (‖te‖ ^ 2 + ‖tm‖ ^ 2) := by
  obtain ⟨hP, hQ, hpw, hb, hg⟩ := make_order hE
  simp only at hP hQ hg
  have hgg : ∀ b, c.expansion.g (flipOrder P Q p q b) = o.app (c.expansion.g b) := by
    intro b
    obtain ⟨r, s, rfl⟩ := exists_orderPos b
    have e := turned_reciproc (o := o) (p := p) (q := q) hb (b' := c.expansion.reciprocal) (by rw [hlat]; exact hb)
    have e2 := turned_latticeVec o p q c.expansion.reciprocal (((r : ℕ) : ℤ) - ((P - 1) / 2 : ℕ)) (((s : ℕ) : ℤ) - ((Q - 1) / 2 : ℕ))
    rw [← e] at e2
    rw [flipOrder_pos, hg, hg, flipAt_mid p hP, flipAt_mid q hQ, e2]
  have hd : ∀ b, ‖flipPhases P Q p q K L b‖ = 1 := by
    intro b; rw [flipPhases, norm_mul, flipPhase_norm, flipPhase_norm, one_mul]
  have hs : ∀ te tm : ℂ, SourceTurned o kp te tm te (-tm) := by
    intro te tm
    rcases hob with hob | ⟨h0, h0s⟩
    · exact ⟨1, by simp, .inr ⟨hob, by simp, by simp [ho]⟩⟩
    · have hc2 : (o.c : ℂ) * o.c = 1 := by
        have := o.unit
        rw [h0s] at this
        have : o.c * o.c = 1 := by linarith
        exact_mod_cast this
      have hcn : ‖(o.c : ℂ)‖ = 1 := by
        have e := congrArg norm hc2
        rw [norm_mul, norm_one] at e
        nlinarith [norm_nonneg (o.c : ℂ)]
      refine ⟨o.c, hcn, .inl ⟨h0, ?_, ?_⟩⟩
      · rw [ho, h0s]; push_cast; linear_combination -te * hc2
      · rw [ho, h0s]; push_cast; linear_combination tm * hc2
  obtain ⟨e1, e2, e3⟩ := device_mirror he h h1 h2 hwl hF hF1 hF2 (f := flipOrder P Q p q) (d := flipPhases P Q p q K L)
    (o := o) (flipOrder_inj p q) hd hgg hkp (fun l hl C hC => flipped_fit hpw hpw (hL l hl) hC hC) hs
    (orderPos ⟨(P - 1) / 2, by omega⟩ ⟨(Q - 1) / 2, by omega⟩) ((orderPos_mid hP hQ).2 ⟨rfl, rfl⟩) (by
        rw [flipOrder_pos]
        refine (orderPos_mid hP hQ).2 ⟨?_, ?_⟩
        · have := flipAt_mid p hP ⟨(P - 1) / 2, by omega⟩
          simp only [sub_self] at this
          have h0 : flipInt p 0 = 0 := by cases p <;> rfl
          rw [h0] at this
          omega
        · have := flipAt_mid q hQ ⟨(Q - 1) / 2, by omega⟩
          simp only [sub_self] at this
          have h0 : flipInt q 0 = 0 := by cases q <;> rfl
          rw [h0] at this
          omega)
  refine ⟨fun r s => ?_, e2, e3⟩
  have := e1 (orderPos r s)
  rwa [flipOrder_pos] at this

/-- **C90.** In particular on a rectangular lattice, for patterns that `np.flip(axis=1)` leaves as they are and a source in
the plane of the first vector. -/
theorem C90_rectangular {c c3 c31 c32 : Crystal (P * Q)} {Ls : List (Layer (P * Q))} {a b k : ℝ} {L : ℕ}
    (he : EigContract (lib.eig (P * Q))) (hE : Expansion.make tag (P, Q) ((a, 0), (0, b)) = .ok c.expansion)
    (h : DeviceRun lib c stack m Ls er et wl te tm theta phi kpo (k, 0) c3)
    (h1 : DeviceRun lib c stack m1 Ls er et wl 1 0 theta1 phi1 kpo1 (k, 0) c31)
    (h2 : DeviceRun lib c stack m2 Ls er et wl 0 1 theta2 phi2 kpo2 (k, 0) c32) (hwl : 0 < wl)
    (hob : k = 0 ∨ 1 / 10 ^ 8 ≤ |k|) (hL : ∀ l ∈ Ls, l.form.Flipped false true 0 L l.form)
    {F F1 F2 : Crystal.Fluxes (P * Q)} (hF : c3.poyntingFluxEnd = .ok F) (hF1 : c31.poyntingFluxEnd = .ok F1)
    (hF2 : c32.poyntingFluxEnd = .ok F2) :
    (∀ (r : Fin P) (s : Fin Q),
      F.Rg (orderPos r s) + F.Rg (orderPos r s.rev) =
        2 * (‖te‖ ^ 2 * F1.Rg (orderPos r s) + ‖tm‖ ^ 2 * F2.Rg (orderPos r s)) / (‖te‖ ^ 2 + ‖tm‖ ^ 2) ∧
      F.Tg (orderPos r s) + F.Tg (orderPos r s.rev) =
        2 * (‖te‖ ^ 2 * F1.Tg (orderPos r s) + ‖tm‖ ^ 2 * F2.Tg (orderPos r s)) / (‖te‖ ^ 2 + ‖tm‖ ^ 2)) ∧
    F.R = (‖te‖ ^ 2 * F1.R + ‖tm‖ ^ 2 * F2.R) / (‖te‖ ^ 2 + ‖tm‖ ^ 2) ∧
    F.T = (‖te‖ ^ 2 * F1.T + ‖tm‖ ^ 2 * F2.T) / (‖te‖ ^ 2 + ‖tm‖ ^ 2) := by
  let o : Turn := ⟨1, 0, -1, by norm_num, by norm_num⟩
  refine C90_mirror (o := o) (p := false) (q := true) (K := 0) (L := L) he hE h h1 h2 hwl rfl
    (by simp [turnedLattice, Turn.app, flipSign, o]) (by simp [Turn.app, o]) ?_ hL hF hF1 hF2
  rcases hob with rfl | hk
  · exact .inr ⟨rfl, rfl⟩
  · refine .inl ?_
    have := pow_le_pow_left₀ (by norm_num) hk 2
    rw [sq_abs] at this
    simpa using this

/-- **C90.** The same for the mirror that exchanges the two vectors of the lattice (a square or a hexagonal one, for
instance), for patterns that are their own transposes and a source in the plane of the mirror. -/
theorem C90_exchange {c c3 c31 c32 : Crystal (P * P)} {Ls : List (Layer (P * P))} {o : Turn}
    (he : EigContract (lib.eig (P * P))) (hE : Expansion.make tag (P, P) lat = .ok c.expansion)
    (h : DeviceRun lib c stack m Ls er et wl te tm theta phi kpo kp c3)
    (h1 : DeviceRun lib c stack m1 Ls er et wl 1 0 theta1 phi1 kpo1 kp c31)
    (h2 : DeviceRun lib c stack m2 Ls er et wl 0 1 theta2 phi2 kpo2 kp c32) (hwl : 0 < wl)
    (ho : o.e = -1) (hlat : (o.app lat.2, o.app lat.1) = lat) (hkp : o.app kp = kp)
    (hob : (1 / 10 ^ 8) ^ 2 ≤ kp.1 ^ 2 + kp.2 ^ 2) (hL : ∀ l ∈ Ls, l.form.Transposed l.form)
    {F F1 F2 : Crystal.Fluxes (P * P)} (hF : c3.poyntingFluxEnd = .ok F) (hF1 : c31.poyntingFluxEnd = .ok F1)
    (hF2 : c32.poyntingFluxEnd = .ok F2) :
    (∀ (r s : Fin P),
      F.Rg (orderPos r s) + F.Rg (orderPos s r) =
        2 * (‖te‖ ^ 2 * F1.Rg (orderPos r s) + ‖tm‖ ^ 2 * F2.Rg (orderPos r s)) / (‖te‖ ^ 2 + ‖tm‖ ^ 2) ∧
      F.Tg (orderPos r s) + F.Tg (orderPos s r) =
        2 * (‖te‖ ^ 2 * F1.Tg (orderPos r s) + ‖tm‖ ^ 2 * F2.Tg (orderPos r s)) / (‖te‖ ^ 2 + ‖tm‖ ^ 2)) ∧
    F.R = (‖te‖ ^ 2 * F1.R + ‖tm‖ ^ 2 * F2.R) / (‖te‖ ^ 2 + ‖tm‖ ^ 2) ∧
    F.T = (‖te‖ ^ 2 * F1.T + ‖tm‖ ^ 2 * F2.T) / (‖te‖ ^ 2 + ‖tm‖ ^ 2) := by
  obtain ⟨hP, -, hpw, hb, hg⟩ := make_order hE
  simp only at hP hg
  have hgg : ∀ b, c.expansion.g (swapOrder P P b) = o.app (c.expansion.g b) := by
    intro b
    obtain ⟨r, s, rfl⟩ := exists_orderPos b
    have e0 : turnedLattice o false false lat = (lat.2, lat.1) := by
      have a1 := congrArg Prod.fst hlat
      have a2 := congrArg Prod.snd hlat
      simp only at a1 a2
      simp [turnedLattice, flipSign, a1, a2]
    have e1 := turned_reciproc (o := o) (p := false) (q := false) hb (b' := (c.expansion.reciprocal.2, c.expansion.reciprocal.1))
      (by rw [e0]; exact reciproc_swap_ok (by exact hb))
    have e2 := turned_latticeVec o false false c.expansion.reciprocal (((r : ℕ) : ℤ) - ((P - 1) / 2 : ℕ)) (((s : ℕ) : ℤ) - ((P - 1) / 2 : ℕ))
    rw [← e1] at e2
    rw [swapOrder_pos, hg, hg, ← e2]
    simp only [latticeVec, flipInt, Bool.false_eq_true, if_false, Prod.mk.injEq]
    constructor <;> ring
  obtain ⟨e1, e2, e3⟩ := device_mirror he h h1 h2 hwl hF hF1 hF2 (f := swapOrder P P) (d := fun _ => 1)
    (o := o) (swapOrder_inj P P) (by simp) hgg hkp (fun l hl C hC => transposed_fit hpw hpw (hL l hl) hC hC)
    (fun te tm => ⟨1, by simp, .inr ⟨hob, by simp, by simp [ho]⟩⟩)
    (orderPos ⟨(P - 1) / 2, by omega⟩ ⟨(P - 1) / 2, by omega⟩) ((orderPos_mid hP hP).2 ⟨rfl, rfl⟩) (by
        rw [swapOrder_pos]
        exact (orderPos_mid hP hP).2 ⟨rfl, rfl⟩)
  refine ⟨fun r s => ?_, e2, e3⟩
  have := e1 (orderPos r s)
  rwa [swapOrder_pos] at this

/-- **C90.** A grating (a single order along the second vector) lit perpendicularly to its lines does not mix the two
polarisations in any order, whatever the patterns of its layers. -/
theorem C90_grating {c c3 c31 c32 : Crystal (P * 1)} {Ls : List (Layer (P * 1))}
    (he : EigContract (lib.eig (P * 1))) (hE : Expansion.make tag (P, 1) lat = .ok c.expansion)
    (h : DeviceRun lib c stack m Ls er et wl te tm theta phi kpo kp c3)
    (h1 : DeviceRun lib c stack m1 Ls er et wl 1 0 theta1 phi1 kpo1 kp c31)
    (h2 : DeviceRun lib c stack m2 Ls er et wl 0 1 theta2 phi2 kpo2 kp c32) (hwl : 0 < wl)
    (hkp : kp.1 * lat.2.1 + kp.2 * lat.2.2 = 0)
    (hob : (1 / 10 ^ 8) ^ 2 ≤ kp.1 ^ 2 + kp.2 ^ 2 ∨ (kp = (0, 0) ∧ (lat.2.1 = 0 ∨ lat.2.2 = 0)))
    {F F1 F2 : Crystal.Fluxes (P * 1)} (hF : c3.poyntingFluxEnd = .ok F) (hF1 : c31.poyntingFluxEnd = .ok F1)
    (hF2 : c32.poyntingFluxEnd = .ok F2) :
    (∀ i, F.Rg i = (‖te‖ ^ 2 * F1.Rg i + ‖tm‖ ^ 2 * F2.Rg i) / (‖te‖ ^ 2 + ‖tm‖ ^ 2) ∧
      F.Tg i = (‖te‖ ^ 2 * F1.Tg i + ‖tm‖ ^ 2 * F2.Tg i) / (‖te‖ ^ 2 + ‖tm‖ ^ 2)) ∧
    F.R = (‖te‖ ^ 2 * F1.R + ‖tm‖ ^ 2 * F2.R) / (‖te‖ ^ 2 + ‖tm‖ ^ 2) ∧
    F.T = (‖te‖ ^ 2 * F1.T + ‖tm‖ ^ 2 * F2.T) / (‖te‖ ^ 2 + ‖tm‖ ^ 2) := by
  obtain ⟨hP, -, hpw, hb, hg⟩ := make_order hE
  simp only at hP hg
  obtain ⟨hdet, hb⟩ := reciproc_eq_ok.1 hb
  have hn : lat.2.1 ^ 2 + lat.2.2 ^ 2 ≠ 0 := by
    intro h0
    apply hdet
    have z1 : lat.2.1 = 0 := by nlinarith [sq_nonneg lat.2.1, sq_nonneg lat.2.2]
    have z2 : lat.2.2 = 0 := by nlinarith [sq_nonneg lat.2.1, sq_nonneg lat.2.2]
    rw [z1, z2]; ring
  let o : Turn := ⟨(lat.2.2 ^ 2 - lat.2.1 ^ 2) / (lat.2.1 ^ 2 + lat.2.2 ^ 2),
    -2 * lat.2.1 * lat.2.2 / (lat.2.1 ^ 2 + lat.2.2 ^ 2), -1, by field_simp; ring, by norm_num⟩
  have fix : ∀ v : R2, v.1 * lat.2.1 + v.2 * lat.2.2 = 0 → o.app v = v := by
    intro v hv
    apply Prod.ext <;> simp only [Turn.app, o]
    · field_simp; linear_combination (-2 * lat.2.1) * hv
    · field_simp; linear_combination (-2 * lat.2.2) * hv
  have hgg : ∀ b, c.expansion.g (id b) = o.app (c.expansion.g b) := by
    intro b
    obtain ⟨r, s, rfl⟩ := exists_orderPos b
    have hs : ((s : ℕ) : ℤ) - ((1 - 1) / 2 : ℕ) = 0 := by omega
    rw [id, fix]
    rw [hg, hs, hb]
    simp only [latticeVec]
    push_cast
    ring
  have hs : ∀ te tm : ℂ, SourceTurned o kp te tm te (-tm) := by
    intro te tm
    rcases hob with hob | ⟨h0, h0s⟩
    · exact ⟨1, by simp, .inr ⟨hob, by simp, by simp [o]⟩⟩
    · have hos : o.s = 0 := by
        rcases h0s with z | z <;> simp [o, z]
      have hc2 : (o.c : ℂ) * o.c = 1 := by
        have := o.unit
        rw [hos] at this
        have : o.c * o.c = 1 := by linarith
        exact_mod_cast this
      have hcn : ‖(o.c : ℂ)‖ = 1 := by
        have e := congrArg norm hc2
        rw [norm_mul, norm_one] at e
        nlinarith [norm_nonneg (o.c : ℂ)]
      have hoe : o.e = -1 := rfl
      refine ⟨o.c, hcn, .inl ⟨h0, ?_, ?_⟩⟩
      · rw [hoe, hos]; push_cast; linear_combination -te * hc2
      · rw [hoe, hos]; push_cast; linear_combination tm * hc2
  obtain ⟨e1, e2, e3⟩ := device_mirror he h h1 h2 hwl hF hF1 hF2 (f := id) (d := fun _ => 1)
    (o := o) Function.injective_id (by simp) hgg (fix kp hkp) (fun l hl C hC => by
      have : embedMat (id : Fin (P * 1) → Fin (P * 1)) (fun _ => 1) = 1 := by
        ext x b
        simp [embedMat, Matrix.one_apply]
      rw [this, Matrix.mul_one, Matrix.one_mul]) hs
    (orderPos ⟨(P - 1) / 2, by omega⟩ 0) ((orderPos_mid hP (by norm_num)).2 ⟨rfl, rfl⟩)
    ((orderPos_mid hP (by norm_num)).2 ⟨rfl, rfl⟩)
  refine ⟨fun i => ?_, e2, e3⟩
  obtain ⟨a1, a2⟩ := e1 i
  rw [id, mul_div_assoc] at a1 a2
  constructor <;> linarith

end

/-! ### Non-vacuity -/

/-- Non-vacuity of C90: a vacuum layer with 3 × 3 orders at oblique incidence, circularly polarised in both senses, and
with the two linear polarisations. -/
example : ∃ (lib : NumLib) (c c3 c3' c31 c32 : Crystal (3 * 3)) (Ls : List (Layer (3 * 3))) (kpo : Option (ℂ × ℂ))
    (F F' F1 F2 : Crystal.Fluxes (3 * 3)),
    EigContract (lib.eig (3 * 3)) ∧ Expansion.make 0 (3, 3) ((1, 0), (0, 1)) = .ok c.expansion ∧
    DeviceRun lib c ["a"] (.inl true) Ls 1 1 2 1 Complex.I 0 0 kpo (Real.pi / 2, 0) c3 ∧
    DeviceRun lib c ["a"] (.inl true) Ls 1 1 2 1 (-Complex.I) 0 0 kpo (Real.pi / 2, 0) c3' ∧
    DeviceRun lib c ["a"] (.inl true) Ls 1 1 2 1 0 0 0 kpo (Real.pi / 2, 0) c31 ∧
    DeviceRun lib c ["a"] (.inl true) Ls 1 1 2 0 1 0 0 kpo (Real.pi / 2, 0) c32 ∧
    Ls ≠ [] ∧ (∀ l ∈ Ls, l.form.Flipped false true 0 5 l.form) ∧
    c3.poyntingFluxEnd = .ok F ∧ c3'.poyntingFluxEnd = .ok F' ∧ c31.poyntingFluxEnd = .ok F1 ∧
    c32.poyntingFluxEnd = .ok F2 ∧ F.T + F'.T = F1.T + F2.T ∧ F.T = (F1.T + F2.T) / 2 := by
  obtain ⟨e, he, -⟩ := unit_expansion 0 (pw := (3, 3)) rfl rfl
  have hpol : ∀ z : ℂ, polNorm (1 : ℂ) z ≠ 0 := by
    intro z
    unfold polNorm
    rw [norm_one]
    positivity
  obtain ⟨c3, F, h, hF⟩ := bragg_run (P := 3) (Q := 3) he false (hpol Complex.I)
  obtain ⟨c3', F', h', hF'⟩ := bragg_run (P := 3) (Q := 3) he false (hpol (-Complex.I))
  obtain ⟨c31, F1, h1, hF1⟩ := bragg_run (P := 3) (Q := 3) he false (te := 1) (tm := 0) (hpol 0)
  obtain ⟨c32, F2, h2, hF2⟩ := bragg_run (P := 3) (Q := 3) he false (te := 0) (tm := 1) (by simp [polNorm])
  have hp3 := Real.two_le_pi
  have hL : ∀ l ∈ [({ expansion := e, form := .uniform 1, depth := 1 / 3 } : Layer (3 * 3))],
      l.form.Flipped false true 0 5 l.form := by
    intro l hl
    rw [List.mem_singleton.1 hl]
    rfl
  refine ⟨plateLib, _, c3, c3', c31, c32, _, _, F, F', F1, F2, plateLib_contract _, he, h, h', h1, h2, by simp, hL,
    hF, hF', hF1, hF2, (C90_unpolarised (plateLib_contract _) h h' h1 h2 two_pos (by simp) hF hF' hF1 hF2).2.2, ?_⟩
  have := (C90_rectangular (plateLib_contract _) he h h1 h2 two_pos (.inr ?_) hL hF hF1 hF2).2.2
  · rw [this]
    norm_num
  · simp only [Bool.false_eq_true, if_false]
    rw [abs_of_pos (by linarith)]
    linarith [show (1 : ℝ) / 10 ^ 8 ≤ 1 by norm_num]

/-- Non-vacuity of C90, with pixmaps: a pattern of 2 × 2 pixels that is its own flip along the second axis, at normal
incidence, where the lines of the grating are along `y`. -/
example : ∃ (lib : NumLib) (c c3 c31 c32 : Crystal (1 * 1)) (Ls : List (Layer (1 * 1))) (F F1 F2 : Crystal.Fluxes (1 * 1)),
    EigContract (lib.eig (1 * 1)) ∧ Expansion.make 0 (1, 1) ((1, 0), (0, 1)) = .ok c.expansion ∧
    DeviceRun lib c ["a"] (.inl true) Ls 1 1 1 3 (4 * Complex.I) 0 0 (some (0, 0)) (0, 0) c3 ∧
    DeviceRun lib c ["a"] (.inl true) Ls 1 1 1 1 0 0 0 (some (0, 0)) (0, 0) c31 ∧
    DeviceRun lib c ["a"] (.inl true) Ls 1 1 1 0 1 0 0 (some (0, 0)) (0, 0) c32 ∧
    Ls.map Layer.form = [.fft ⟨2, 2, fun x _ => if x = 0 then 3 else 5⟩] ∧
    (∀ l ∈ Ls, l.form.Flipped false true 0 2 l.form) ∧
    c3.poyntingFluxEnd = .ok F ∧ c31.poyntingFluxEnd = .ok F1 ∧ c32.poyntingFluxEnd = .ok F2 ∧
    F.R = (9 * F1.R + 16 * F2.R) / 25 ∧ F.Rg 0 = (9 * F1.Rg 0 + 16 * F2.Rg 0) / 25 := by
  have hv : ∑ x : Fin 2, ∑ _y : Fin 2, (if x = 0 then 3 else 5 : ℂ) = 4 * ((2 : ℕ) * (2 : ℕ)) := by norm_num [Fin.sum_univ_two]
  obtain ⟨c3, F, h, hF⟩ := meanFour_run (val := fun x _ => if x = 0 then 3 else 5) two_pos two_pos hv
    (te := 3) (tm := 4 * Complex.I) (by unfold polNorm; rw [Complex.norm_mul, Complex.norm_I]; norm_num)
  obtain ⟨c31, F1, h1, hF1⟩ := meanFour_run (val := fun x _ => if x = 0 then 3 else 5) two_pos two_pos hv
    (te := 1) (tm := 0) (by simp [polNorm])
  obtain ⟨c32, F2, h2, hF2⟩ := meanFour_run (val := fun x _ => if x = 0 then 3 else 5) two_pos two_pos hv
    (te := 0) (tm := 1) (by simp [polNorm])
  have hL : ∀ l ∈ [({ expansion := exampleExpansion, form := .fft ⟨2, 2, fun x _ => if x = 0 then 3 else 5⟩, depth := 4⁻¹ } : Layer (1 * 1))],
      l.form.Flipped false true 0 2 l.form := by
    intro l hl
    rw [List.mem_singleton.1 hl]
    exact ⟨by simp, fun _ => rfl, rfl⟩
  have n3 : ‖(3 : ℂ)‖ = 3 := by norm_num
  have n4 : ‖4 * Complex.I‖ = 4 := by rw [Complex.norm_mul, Complex.norm_I]; norm_num
  refine ⟨plateLib, _, c3, c31, c32, _, F, F1, F2, plateLib_contract _, exampleExpansion_make, h, h1, h2, rfl, hL,
    hF, hF1, hF2, ?_, ?_⟩
  · rw [(C90_rectangular (plateLib_contract _) exampleExpansion_make h h1 h2 one_pos (.inl rfl) hL hF hF1 hF2).2.1, n3, n4]
    norm_num
  · rw [((C90_grating (plateLib_contract _) exampleExpansion_make h h1 h2 one_pos (by simp) (.inr ⟨rfl, .inl rfl⟩)
      hF hF1 hF2).1 0).1, n3, n4]
    norm_num

/-- Non-vacuity of C90, with the mirror along the diagonal of a square lattice. -/
example : ∃ (lib : NumLib) (c c3 c31 c32 : Crystal (3 * 3)) (Ls : List (Layer (3 * 3))) (kpo : Option (ℂ × ℂ)) (o : Turn)
    (F F1 F2 : Crystal.Fluxes (3 * 3)),
    EigContract (lib.eig (3 * 3)) ∧ Expansion.make 0 (3, 3) ((1, 0), (0, 1)) = .ok c.expansion ∧
    DeviceRun lib c ["a"] (.inl true) Ls 1 1 2 1 1 0 0 kpo (Real.pi / 2, Real.pi / 2) c3 ∧
    DeviceRun lib c ["a"] (.inl true) Ls 1 1 2 1 0 0 0 kpo (Real.pi / 2, Real.pi / 2) c31 ∧
    DeviceRun lib c ["a"] (.inl true) Ls 1 1 2 0 1 0 0 kpo (Real.pi / 2, Real.pi / 2) c32 ∧
    o.e = -1 ∧ (o.app (0, 1), o.app (1, 0)) = (((1, 0), (0, 1)) : R2 × R2) ∧
    o.app (Real.pi / 2, Real.pi / 2) = (Real.pi / 2, Real.pi / 2) ∧
    Ls ≠ [] ∧ (∀ l ∈ Ls, l.form.Transposed l.form) ∧
    c3.poyntingFluxEnd = .ok F ∧ c31.poyntingFluxEnd = .ok F1 ∧
    c32.poyntingFluxEnd = .ok F2 ∧ F.T = (F1.T + F2.T) / 2 := by
  obtain ⟨e, he, -⟩ := unit_expansion 0 (pw := (3, 3)) rfl rfl
  have hpol : ∀ z : ℂ, polNorm (1 : ℂ) z ≠ 0 := by
    intro z
    unfold polNorm
    rw [norm_one]
    positivity
  obtain ⟨c3, F, h, hF⟩ := diagonal_run (P := 3) (Q := 3) he (hpol 1)
  obtain ⟨c31, F1, h1, hF1⟩ := diagonal_run (P := 3) (Q := 3) he (te := 1) (tm := 0) (hpol 0)
  obtain ⟨c32, F2, h2, hF2⟩ := diagonal_run (P := 3) (Q := 3) he (te := 0) (tm := 1) (by simp [polNorm])
  have hp3 := Real.two_le_pi
  have hL : ∀ l ∈ [({ expansion := e, form := .uniform 1, depth := 1 / 3 } : Layer (3 * 3))], l.form.Transposed l.form := by
    intro l hl
    rw [List.mem_singleton.1 hl]
    rfl
  let o : Turn := ⟨0, 1, -1, by norm_num, by norm_num⟩
  have ho : (o.app (0, 1), o.app (1, 0)) = (((1, 0), (0, 1)) : R2 × R2) := by simp [Turn.app, o]
  have hk : o.app (Real.pi / 2, Real.pi / 2) = (Real.pi / 2, Real.pi / 2) := by simp [Turn.app, o]
  refine ⟨plateLib, _, c3, c31, c32, _, _, o, F, F1, F2, plateLib_contract _, he, h, h1, h2, rfl, ho, hk, by simp, hL,
    hF, hF1, hF2, ?_⟩
  rw [(C90_exchange (plateLib_contract _) he h h1 h2 two_pos (o := o) rfl ho hk (by simp only; nlinarith) hL hF hF1 hF2).2.2]
  norm_num

end Khepri
