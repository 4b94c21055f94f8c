import Verif.Spec.Ez
import Verif.Lemmas.TmatS
import Verif.Lemmas.Stack
import Verif.Lemmas.Py
import Verif.Lemmas.TmatDevice

/-! Project files. -/

set_option linter.unusedSectionVars false

namespace Khepri

theorem optMapM_eq_some {α β : Type} {f : α → Option β} : ∀ {l : List α} {r : List β},
    l.mapM f = some r ↔ List.Forall₂ (fun a b => f a = some b) l r
  | [], r => by simp [eq_comm]
  | a :: l, r => by
    rw [List.mapM_cons]
    cases ha : f a with
    | none => cases r <;> simp [ha]
    | some b =>
      cases hl : l.mapM f with
      | none =>
        have : ∀ r, ¬ List.Forall₂ (fun a b => f a = some b) l r := fun r h => by
          rw [← optMapM_eq_some, hl] at h; simp at h
        cases r with
        | nil => simp
        | cons c r => simp [this]
      | some bs =>
        cases r with
        | nil => simp
        | cons c r =>
          have := optMapM_eq_some (f := f) (l := l) (r := r)
          rw [hl] at this
          simp only [Option.bind_eq_bind, Option.bind_some, Option.pure_def, Option.some.injEq, List.cons.injEq,
            List.forall₂_cons, ha, ← this]

theorem foldlM_cons_ok {α σ : Type} {f : σ → α → Py σ} {a : α} {l : List α} {s s' : σ} :
    (a :: l).foldlM f s = .ok s' ↔ ∃ t, f s a = .ok t ∧ l.foldlM f t = .ok s' := by
  rw [List.foldlM_cons, bind_eq_ok]

theorem foldlM_nil_ok {α σ : Type} {f : σ → α → Py σ} {s s' : σ} : [].foldlM f s = .ok s' ↔ s = s' := by
  simp [pure, Except.pure]

theorem relChain_append {α V : Type} {R : α → V → V → Prop} : ∀ {L L' : List α} {u w : V},
    RelChain R (L ++ L') u w ↔ ∃ v, RelChain R L u v ∧ RelChain R L' v w
  | [], L', u, w => by simp [RelChain]
  | x :: L, L', u, w => by
    simp only [List.cons_append, RelChain, relChain_append (L := L)]
    constructor
    · rintro ⟨v, h, v', h1, h2⟩; exact ⟨v', ⟨v, h, h1⟩, h2⟩
    · rintro ⟨v', ⟨v, h, h1⟩, h2⟩; exact ⟨v, h, v', h1, h2⟩

theorem relChain_congr {α V : Type} {R R' : α → V → V → Prop} : ∀ {L : List α} {u w : V},
    (∀ x ∈ L, ∀ u v, R x u v ↔ R' x u v) → (RelChain R L u w ↔ RelChain R' L u w)
  | [], u, w, _ => by simp [RelChain]
  | x :: L, u, w, h => by
    simp only [RelChain]
    refine exists_congr fun v => ?_
    rw [h x List.mem_cons_self, relChain_congr fun y hy => h y (List.mem_cons_of_mem _ hy)]

/-- What `expand` says of a name. -/
theorem expand_eq_some {cfg : EzConfig} {k : ℕ} {name : String} {L : List String} :
    expand cfg (k + 1) name = some L ↔
      (∃ d Ls, cfg.stacking name = some d ∧ List.Forall₂ (fun x M => expand cfg k x = some M) d.layers Ls ∧
        L = (List.replicate d.reps Ls.flatten).flatten) ∨
      (cfg.stacking name = none ∧ (∃ ly, cfg.layers name = some ly) ∧ L = [name]) := by
  rw [expand]
  cases hs : cfg.stacking name with
  | none =>
    simp only [reduceCtorEq, false_and, exists_false, false_or, true_and]
    cases hl : cfg.layers name with
    | none => simp
    | some ly => simp [eq_comm]
  | some d =>
    simp only [Option.map_eq_some_iff, optMapM_eq_some, Option.some.injEq, reduceCtorEq, false_and, or_false]
    constructor
    · rintro ⟨Ls, h, rfl⟩; exact ⟨d, Ls, rfl, h, rfl⟩
    · rintro ⟨_, Ls, rfl, h, rfl⟩; exact ⟨Ls, h, rfl⟩

theorem expand_cases {cfg : EzConfig} {k : ℕ} {name : String} {L : List String} (h : expand cfg k name = some L) :
    (∃ k' d Ls, k = k' + 1 ∧ cfg.stacking name = some d ∧ List.Forall₂ (fun x M => expand cfg k' x = some M) d.layers Ls ∧
        L = (List.replicate d.reps Ls.flatten).flatten) ∨
      (cfg.stacking name = none ∧ (∃ ly, cfg.layers name = some ly) ∧ L = [name]) := by
  cases k with
  | zero => simp [expand] at h
  | succ k =>
    rcases expand_eq_some.1 h with ⟨d, Ls, h1, h2, h3⟩ | h
    · exact Or.inl ⟨k, d, Ls, rfl, h1, h2, h3⟩
    · exact Or.inr h

/-! ## `gather_s` -/

theorem mem_replicate_flatten {r : ℕ} (hr : 1 ≤ r) {F : List String} {x : String} :
    x ∈ (List.replicate r F).flatten ↔ x ∈ F := by
  rw [List.mem_flatten]
  constructor
  · rintro ⟨l, hl, hx⟩; rw [List.eq_of_mem_replicate hl] at hx; exact hx
  · intro hx; exact ⟨F, List.mem_replicate.2 ⟨by omega, rfl⟩, hx⟩

theorem gather_fold {cfg : EzConfig} {k : ℕ} {names : List String} {Ls : List (List String)}
    (h : List.Forall₂ (fun x L => ∀ req req', gatherS cfg k x req = .ok req' →
      (∀ y, y ∈ req' ↔ y ∈ req ∨ y ∈ L) ∧ (req.Nodup → req'.Nodup)) names Ls) : ∀ {req req' : List String},
    names.foldlM (fun r l => gatherS cfg k l r) req = .ok req' →
      (∀ y, y ∈ req' ↔ y ∈ req ∨ y ∈ Ls.flatten) ∧ (req.Nodup → req'.Nodup) := by
  induction h with
  | nil => intro req req' h; rw [foldlM_nil_ok] at h; subst h; simp
  | cons h1 _ ih =>
    intro req req' h
    obtain ⟨t, ht, h'⟩ := foldlM_cons_ok.1 h
    obtain ⟨a1, a2⟩ := h1 _ _ ht
    obtain ⟨b1, b2⟩ := ih h'
    refine ⟨fun y => ?_, fun hn => b2 (a2 hn)⟩
    rw [b1, a1, List.flatten_cons, List.mem_append, or_assoc]

theorem gather_spec {cfg : EzConfig} (hr : ∀ name d, cfg.stacking name = some d → 1 ≤ d.reps) : ∀ (k n : ℕ) (name : String)
    (L : List String), expand cfg n name = some L → ∀ req req', gatherS cfg k name req = .ok req' →
      (∀ y, y ∈ req' ↔ y ∈ req ∨ y ∈ L) ∧ (req.Nodup → req'.Nodup)
  | 0, n, name, L, _, req, req', h => by simp [gatherS] at h
  | k + 1, n, name, L, he, req, req', h => by
    rw [gatherS] at h
    rcases expand_cases he with ⟨n', d, Ls, rfl, hs, hf, rfl⟩ | ⟨hs, ⟨ly, hl⟩, rfl⟩
    · simp only [hs] at h
      have := gather_fold (hf.imp fun x L hx => gather_spec hr k n' x L hx) h
      simpa only [mem_replicate_flatten (hr _ _ hs)] using this
    · simp only [hs, hl, Except.ok.injEq] at h
      subst h
      split_ifs with hm
      · refine ⟨fun y => ?_, id⟩
        simp only [List.mem_singleton]
        constructor
        · exact Or.inl
        · rintro (h | rfl); exacts [h, hm]
      · refine ⟨fun y => by simp, fun hn => ?_⟩
        rw [List.nodup_append]
        exact ⟨hn, by simp, fun a ha b hb => by
          rw [List.mem_singleton] at hb; subst hb; exact fun e => hm (e ▸ ha)⟩

theorem gather_leaf {cfg : EzConfig} : ∀ (k : ℕ) (name : String) (req req' : List String),
    gatherS cfg k name req = .ok req' → (∀ y ∈ req, cfg.stacking y = none ∧ ∃ ly, cfg.layers y = some ly) →
      ∀ y ∈ req', cfg.stacking y = none ∧ ∃ ly, cfg.layers y = some ly
  | 0, name, req, req', h, _ => by simp [gatherS] at h
  | k + 1, name, req, req', h, h0 => by
    rw [gatherS] at h
    cases hs : cfg.stacking name with
    | some d =>
      simp only [hs] at h
      have key : ∀ (l : List String) (r r' : List String), l.foldlM (fun r l => gatherS cfg k l r) r = .ok r' →
          (∀ y ∈ r, cfg.stacking y = none ∧ ∃ ly, cfg.layers y = some ly) →
          ∀ y ∈ r', cfg.stacking y = none ∧ ∃ ly, cfg.layers y = some ly := by
        intro l
        induction l with
        | nil => intro r r' h hr; rw [foldlM_nil_ok] at h; subst h; exact hr
        | cons a l ih =>
          intro r r' h hr
          obtain ⟨t, ht, h'⟩ := foldlM_cons_ok.1 h
          exact ih _ _ h' (gather_leaf k a r t ht hr)
      exact key _ _ _ h h0
    | none =>
      cases hl : cfg.layers name with
      | none => simp only [hs, hl, Except.ok.injEq] at h; subst h; exact h0
      | some ly =>
        simp only [hs, hl, Except.ok.injEq] at h
        subst h
        split_ifs with hm
        · exact h0
        · intro y hy
          rcases List.mem_append.1 hy with hy | hy
          · exact h0 y hy
          · rw [List.mem_singleton] at hy; subst hy; exact ⟨hs, ly, hl⟩

theorem gather_total {cfg : EzConfig} : ∀ (n k : ℕ) (name : String) (L : List String), expand cfg n name = some L → n ≤ k →
    ∀ req, ∃ req', gatherS cfg k name req = .ok req'
  | 0, k, name, L, h, _, _ => by simp [expand] at h
  | n + 1, 0, name, L, h, hk, _ => by omega
  | n + 1, k + 1, name, L, h, hk, req => by
    rw [gatherS]
    rcases expand_eq_some.1 h with ⟨d, Ls, hs, hf, rfl⟩ | ⟨hs, ⟨ly, hl⟩, rfl⟩
    · simp only [hs]
      have key : ∀ (l : List String) (M : List (List String)), List.Forall₂ (fun x M => expand cfg n x = some M) l M →
          ∀ r, ∃ r', l.foldlM (fun r l => gatherS cfg k l r) r = .ok r' := by
        intro l M hlM
        induction hlM with
        | nil => intro r; exact ⟨r, rfl⟩
        | cons h1 _ ih =>
          intro r
          obtain ⟨t, ht⟩ := gather_total n k _ _ h1 (by omega) r
          obtain ⟨r', hr'⟩ := ih t
          exact ⟨r', foldlM_cons_ok.2 ⟨t, ht, hr'⟩⟩
      exact key _ _ hf req
    · simp only [hs, hl]; exact ⟨_, rfl⟩

/-! ## `stack_s` -/

section
variable {n : Type} [Fintype n] [DecidableEq n]

theorem ezMatmul_eq_ok {X Y Z : Option (Matrix (n ⊕ n) (n ⊕ n) ℂ)} :
    ezMatmul X Y = .ok Z ↔ ∃ A B S, X = some A ∧ Y = some B ∧ Z = some S ∧ multS A B = .ok S := by
  cases X with
  | none => simp [ezMatmul]
  | some A =>
    cases Y with
    | none => simp [ezMatmul]
    | some B =>
      simp only [ezMatmul, bind_eq_ok, pure, Except.pure, Except.ok.injEq, Option.some.injEq, exists_and_left, exists_eq_left']
      constructor
      · rintro ⟨S, h, rfl⟩; exact ⟨S, rfl, h⟩
      · rintro ⟨S, rfl, h⟩; exact ⟨S, h, rfl⟩

/-- The relation the S-matrix of a required layer stands for. -/
def layerRel (get : String → Option (Matrix (n ⊕ n) (n ⊕ n) ℂ)) (x : String) (u v : n ⊕ n → ℂ) : Prop :=
  ∃ S, get x = some S ∧ TScatters S u v

/-- An S-matrix that stands for a sequence of layers. -/
def Means (get : String → Option (Matrix (n ⊕ n) (n ⊕ n) ℂ)) (S : Matrix (n ⊕ n) (n ⊕ n) ℂ) (L : List String) : Prop :=
  ∀ u w, TScatters S u w ↔ RelChain (layerRel get) L u w

variable {get : String → Option (Matrix (n ⊕ n) (n ⊕ n) ℂ)}

theorem means_mul {A B S : Matrix (n ⊕ n) (n ⊕ n) ℂ} {L M : List String} (hA : Means get A L) (hB : Means get B M)
    (h : multS A B = .ok S) : Means get S (L ++ M) := by
  intro u w
  rw [multS_chain h, relChain_append]
  simp only [hA _ _, hB _ _]

theorem stack_fold {cfg : EzConfig} {k : ℕ} {names : List String} {Ls : List (List String)}
    (h : List.Forall₂ (fun x L => ∀ S, stackS cfg get k x = .ok (some S) → Means get S L) names Ls) :
    ∀ {X : Option (Matrix (n ⊕ n) (n ⊕ n) ℂ)} {S : Matrix (n ⊕ n) (n ⊕ n) ℂ} {L0 : List String},
    (∀ A, X = some A → Means get A L0) →
    names.foldlM (fun S ss => do
      let R ← stackS cfg get k ss
      ezMatmul S R) X = .ok (some S) → Means get S (L0 ++ Ls.flatten) := by
  induction h with
  | nil =>
    intro X S L0 hX h
    rw [foldlM_nil_ok] at h
    simpa using hX S h
  | cons h1 _ ih =>
    intro X S L0 hX h
    obtain ⟨t, ht, h'⟩ := foldlM_cons_ok.1 h
    obtain ⟨R, hR, hm⟩ := bind_eq_ok.1 ht
    obtain ⟨A, B, C, rfl, rfl, rfl, hmul⟩ := ezMatmul_eq_ok.1 hm
    rw [List.flatten_cons, ← List.append_assoc]
    refine ih (X := some C) ?_ h'
    rintro _ ⟨⟩
    exact means_mul (hX A rfl) (h1 B hR) hmul

theorem repeat_fold {B : Matrix (n ⊕ n) (n ⊕ n) ℂ} {F : List String} (hB : Means get B F) : ∀ (l : List ℕ)
    {A S : Matrix (n ⊕ n) (n ⊕ n) ℂ} {L0 : List String}, Means get A L0 →
    l.foldlM (fun acc _ => ezMatmul acc (some B)) (some A) = .ok (some S) →
      Means get S (L0 ++ (List.replicate l.length F).flatten)
  | [], A, S, L0, hA, h => by
    rw [foldlM_nil_ok] at h
    cases h
    simpa using hA
  | a :: l, A, S, L0, hA, h => by
    obtain ⟨t, ht, h'⟩ := foldlM_cons_ok.1 h
    obtain ⟨A', B', C, hA', hB', rfl, hm⟩ := ezMatmul_eq_ok.1 ht
    cases hA'; cases hB'
    rw [List.length_cons, List.replicate_succ, List.flatten_cons, ← List.append_assoc]
    exact repeat_fold hB l (means_mul hA hB hm) h'

theorem stack_spec {cfg : EzConfig} (hr : ∀ name d, cfg.stacking name = some d → 1 ≤ d.reps)
    (hg : ∀ x S, get x = some S → cfg.stacking x = none) : ∀ (k m : ℕ) (name : String) (L : List String),
    expand cfg m name = some L → ∀ S, stackS cfg get k name = .ok (some S) → Means get S L
  | 0, m, name, L, _, S, h => by simp [stackS] at h
  | k + 1, m, name, L, he, S, h => by
    rw [stackS] at h
    cases hget : get name with
    | some S' =>
      simp only [hget, Except.ok.injEq, Option.some.injEq] at h
      subst h
      have hs := hg _ _ hget
      rcases expand_cases he with ⟨_, d, _, _, hs', _⟩ | ⟨_, _, rfl⟩
      · rw [hs] at hs'; simp at hs'
      · intro u w
        simp only [RelChain, layerRel, hget, Option.some.injEq, exists_eq_left']
        exact ⟨fun h => ⟨w, h, rfl⟩, fun ⟨v, h, e⟩ => e ▸ h⟩
    | none =>
      rcases expand_cases he with ⟨m', d, Ls, rfl, hs, hf, rfl⟩ | ⟨hs, _, rfl⟩
      · simp only [hget, hs, bind_eq_ok, pyGet_eq_ok] at h
        obtain ⟨first, h0, S0, hS0, S1, hS1, hrep⟩ := h
        have hf' := hf.imp fun x L hx => stack_spec hr hg k m' x L hx
        cases hl : d.layers with
        | nil => rw [hl] at h0; simp at h0
        | cons x xs =>
          rw [hl] at h0 hS1 hf'
          simp only [List.getElem?_cons_zero, Option.some.injEq] at h0
          subst h0
          rw [List.tail_cons] at hS1
          obtain ⟨L1, Ls', h1, h2, rfl⟩ := List.forall₂_cons_left_iff.1 hf'
          have hone : ∀ S1', S1 = some S1' → Means get S1' (L1 :: Ls').flatten := by
            rintro _ rfl
            rw [List.flatten_cons]
            exact stack_fold h2 (fun A e => h1 A (by rw [hS0, e])) hS1
          unfold ezRepeat at hrep
          split_ifs at hrep with hr1
          · cases S1 with
            | none => simp at hrep
            | some S1 =>
              simp only at hrep
              have := repeat_fold (hone S1 rfl) _ (hone S1 rfl) hrep
              rw [List.length_range] at this
              have e : d.reps = (d.rep.getD 1 - 1).toNat + 1 := by unfold EzStack.reps; omega
              rw [e, List.replicate_succ, List.flatten_cons]
              exact this
          · rw [Except.ok.injEq] at hrep
            have e : d.reps = 1 := by have := hr _ _ hs; unfold EzStack.reps at this ⊢; omega
            rw [e]
            simpa using hone S hrep
      · simp only [hget, hs, Except.ok.injEq] at h
        cases h

/-- Nothing can go wrong but a singular cascade. -/
def Fine (X : Py (Option (Matrix (n ⊕ n) (n ⊕ n) ℂ))) : Prop := (∃ S, X = .ok (some S)) ∨ X = .error .linAlg

theorem multS_fine (A B : Matrix (n ⊕ n) (n ⊕ n) ℂ) : (∃ S, multS A B = .ok S) ∨ multS A B = .error .linAlg := by
  by_cases hd : (1 - A.toBlocks₁₂ * B.toBlocks₂₁).det = 0
  · right
    simp only [multS, npSolve_err hd, error_bind]
  · left
    unfold multS
    simp only [npSolve_ok hd, ok_bind]
    exact ⟨_, rfl⟩

theorem ezMatmul_fine (A B : Matrix (n ⊕ n) (n ⊕ n) ℂ) : Fine (ezMatmul (some A) (some B)) := by
  rcases multS_fine A B with ⟨S, h⟩ | h
  · left; exact ⟨S, by rw [ezMatmul, h]; rfl⟩
  · right; rw [ezMatmul, h]; rfl

theorem fine_fold {α : Type} {f : Option (Matrix (n ⊕ n) (n ⊕ n) ℂ) → α → Py (Option (Matrix (n ⊕ n) (n ⊕ n) ℂ))}
    (l : List α) : (∀ x ∈ l, ∀ A, Fine (f (some A) x)) → ∀ A, Fine (l.foldlM f (some A)) := by
  induction l with
  | nil => intro _ A; left; exact ⟨A, rfl⟩
  | cons x l ih =>
    intro h A
    rw [List.foldlM_cons]
    rcases h x List.mem_cons_self A with ⟨S, hS⟩ | he
    · rw [hS, ok_bind]; exact ih (fun y hy => h y (List.mem_cons_of_mem _ hy)) S
    · right; rw [he]; rfl

theorem stack_fine {cfg : EzConfig} (hr : ∀ name d, cfg.stacking name = some d → 1 ≤ d.reps ∧ d.layers ≠ []) :
    ∀ (m k : ℕ) (name : String) (L : List String), expand cfg m name = some L → m ≤ k →
      (∀ x ∈ L, ∃ S, get x = some S) → Fine (stackS cfg get k name)
  | 0, k, name, L, h, _, _ => by simp [expand] at h
  | m + 1, 0, name, L, h, hk, _ => by omega
  | m + 1, k + 1, name, L, h, hk, hL => by
    rw [stackS]
    cases hget : get name with
    | some S => left; exact ⟨S, rfl⟩
    | none =>
      rcases expand_eq_some.1 h with ⟨d, Ls, hs, hf, rfl⟩ | ⟨hs, _, rfl⟩
      · obtain ⟨h1, h2⟩ := hr _ _ hs
        simp only [mem_replicate_flatten h1] at hL
        have each : ∀ x ∈ d.layers, Fine (stackS cfg get k x) := by
          have : ∀ (l : List String) (M : List (List String)), List.Forall₂ (fun x M => expand cfg m x = some M) l M →
              (∀ x ∈ M.flatten, ∃ S, get x = some S) → ∀ x ∈ l, Fine (stackS cfg get k x) := by
            intro l M hlM
            induction hlM with
            | nil => intro _ x hx; simp at hx
            | cons h1 _ ih =>
              intro hM x hx
              rw [List.flatten_cons] at hM
              rcases List.mem_cons.1 hx with rfl | hx
              · exact stack_fine hr m k _ _ h1 (by omega) fun y hy => hM y (List.mem_append_left _ hy)
              · exact ih (fun y hy => hM y (List.mem_append_right _ hy)) x hx
          exact this _ _ hf hL
        obtain ⟨x, xs, hl⟩ := List.exists_cons_of_ne_nil h2
        simp only [hs, hl, pyGet, List.getElem?_cons_zero, ok_bind, List.tail_cons]
        rw [hl] at each
        rcases each x List.mem_cons_self with ⟨S0, e0⟩ | e0
        · rw [e0, ok_bind]
          have hfold := fine_fold (f := fun S ss => do
            let R ← stackS cfg get k ss
            ezMatmul S R) xs (fun y hy A => by
              rcases each y (List.mem_cons_of_mem _ hy) with ⟨R, e⟩ | e
              · simp only [e, ok_bind]; exact ezMatmul_fine A R
              · right; simp only [e]; rfl) S0
          rcases hfold with ⟨S1, e1⟩ | e1
          · rw [e1, ok_bind]
            unfold ezRepeat
            split_ifs
            · exact fine_fold _ (fun _ _ A => ezMatmul_fine A S1) S1
            · left; exact ⟨S1, rfl⟩
          · right; rw [e1]; rfl
        · right; rw [e0]; rfl
      · obtain ⟨S, hS⟩ := hL name List.mem_cons_self
        rw [hget] at hS
        simp at hS

end

/-! ## `plot_layer` -/

theorem drawn_append {cfg : EzConfig} : ∀ {L M : List String} {z : ℝ} {D E : List EzDrawn}, DrawnAs cfg L z D →
    DrawnAs cfg M (z + (L.map cfg.depth).sum) E → DrawnAs cfg (L ++ M) z (D ++ E)
  | [], M, z, D, E, hD, hE => by
    simp only [DrawnAs] at hD
    subst hD
    simpa using hE
  | x :: L, M, z, D, E, hD, hE => by
    obtain ⟨ly, isl, rest, h1, rfl, h2, h3, h4⟩ := hD
    refine ⟨ly, isl, rest ++ E, h1, by simp, h2, h3, drawn_append h4 ?_⟩
    have : cfg.depth x = ly.depth := by simp [EzConfig.depth, h1]
    rw [List.map_cons, List.sum_cons, this, ← add_assoc] at hE
    exact hE

/-- `plot_layer` started at height `z` and went through the layers `L`. -/
def PlotsTo (cfg : EzConfig) (L : List String) (st st' : ℝ × List EzDrawn) : Prop :=
  st'.1 = st.1 + (L.map cfg.depth).sum ∧ ∃ D, st'.2 = st.2 ++ D ∧ DrawnAs cfg L st.1 D

theorem plots_nil {cfg : EzConfig} (st : ℝ × List EzDrawn) : PlotsTo cfg [] st st :=
  ⟨by simp, [], by simp, rfl⟩

theorem plots_append {cfg : EzConfig} {L M : List String} {a b c : ℝ × List EzDrawn} (h : PlotsTo cfg L a b)
    (h' : PlotsTo cfg M b c) : PlotsTo cfg (L ++ M) a c := by
  obtain ⟨e1, D, e2, hD⟩ := h
  obtain ⟨f1, E, f2, hE⟩ := h'
  refine ⟨by rw [f1, e1, List.map_append, List.sum_append]; ring, D ++ E, by rw [f2, e2, List.append_assoc], ?_⟩
  exact drawn_append hD (e1 ▸ hE)

theorem pyKey_eq_ok {α : Type} {o : Option α} {x : α} : pyKey o = .ok x ↔ o = some x := by
  cases o <;> simp [pyKey]

theorem plotIsland_eq_ok {cfg : EzConfig} {z d : ℝ} {i : EzIsland} {D : List EzDrawn} (h : plotIsland cfg z d i = .ok D) :
    D.length = ([i].filter fun i => i.shape == "disc" || i.shape == "rectangle").length ∧
      ∀ s ∈ D, s.bottom = z ∧ s.height = d := by
  unfold plotIsland at h
  split_ifs at h with h1 h2
  · simp only [bind_eq_ok, pyKey_eq_ok] at h
    obtain ⟨r, _, _, _, h⟩ := h
    split at h
    · simp only [pure, Except.pure, Except.ok.injEq] at h
      subst h
      simp [h1, EzDrawn.bottom, EzDrawn.height]
    · simp at h
  · simp only [bind_eq_ok, pyKey_eq_ok] at h
    obtain ⟨r, _, s, _, h⟩ := h
    split at h
    · simp only [pure, Except.pure, Except.ok.injEq] at h
      subst h
      simp [h2, EzDrawn.bottom, EzDrawn.height]
    · simp at h
  · simp only [pure, Except.pure, Except.ok.injEq] at h
    subst h
    simp [h1, h2]

theorem plotIslands_eq_ok {cfg : EzConfig} {z d : ℝ} {is : List EzIsland} {Ds : List (List EzDrawn)}
    (h : List.Forall₂ (fun i D => plotIsland cfg z d i = .ok D) is Ds) :
    Ds.flatten.length = (is.filter fun i => i.shape == "disc" || i.shape == "rectangle").length ∧
      ∀ s ∈ Ds.flatten, s.bottom = z ∧ s.height = d := by
  induction h with
  | nil => simp
  | cons h1 _ ih =>
    obtain ⟨a1, a2⟩ := plotIsland_eq_ok h1
    rename_i i D is' Ds' _
    refine ⟨?_, ?_⟩
    · rw [List.flatten_cons, List.length_append, ih.1, a1, ← List.length_append, ← List.filter_append]
      rfl
    · intro s hs
      rw [List.flatten_cons, List.mem_append] at hs
      rcases hs with hs | hs
      · exact a2 s hs
      · exact ih.2 s hs

theorem plot_fold {cfg : EzConfig} {k : ℕ} {names : List String} {Ls : List (List String)}
    (h : List.Forall₂ (fun x L => ∀ st st', plotLayer cfg k x st = .ok st' → PlotsTo cfg L st st') names Ls) :
    ∀ {st st' : ℝ × List EzDrawn}, names.foldlM (fun st l => plotLayer cfg k l st) st = .ok st' →
      PlotsTo cfg Ls.flatten st st' := by
  induction h with
  | nil => intro st st' h; rw [foldlM_nil_ok] at h; subst h; exact plots_nil st
  | cons h1 _ ih =>
    intro st st' h
    obtain ⟨t, ht, h'⟩ := foldlM_cons_ok.1 h
    exact plots_append (h1 _ _ ht) (ih h')

theorem plot_spec {cfg : EzConfig} : ∀ (k m : ℕ) (name : String) (L : List String), expand cfg m name = some L →
    ∀ st st', plotLayer cfg k name st = .ok st' → PlotsTo cfg L st st'
  | 0, m, name, L, _, st, st', h => by simp [plotLayer] at h
  | k + 1, m, name, L, he, st, st', h => by
    rw [plotLayer] at h
    rcases expand_cases he with ⟨m', d, Ls, rfl, hs, hf, rfl⟩ | ⟨hs, ⟨ly, hl⟩, rfl⟩
    · simp only [hs] at h
      have hf' := hf.imp fun x L hx => plot_spec k m' x L hx
      have key : ∀ (l : List ℕ) (st st' : ℝ × List EzDrawn),
          l.foldlM (fun st _ => d.layers.foldlM (fun st l => plotLayer cfg k l st) st) st = .ok st' →
          PlotsTo cfg (List.replicate l.length Ls.flatten).flatten st st' := by
        intro l
        induction l with
        | nil => intro st st' h; rw [foldlM_nil_ok] at h; subst h; exact plots_nil st
        | cons a l ih =>
          intro st st' h
          obtain ⟨t, ht, h'⟩ := foldlM_cons_ok.1 h
          rw [List.length_cons, List.replicate_succ, List.flatten_cons]
          exact plots_append (plot_fold hf' ht) (ih _ _ h')
      cases hrep : d.rep with
      | none =>
        simp only [hrep] at h
        have : d.reps = 1 := by simp [EzStack.reps, hrep]
        rw [this]
        simpa using plot_fold hf' h
      | some r =>
        simp only [hrep] at h
        have := key _ _ _ h
        rw [List.length_range] at this
        simpa [EzStack.reps, hrep] using this
    · simp only [hs, hl, bind_eq_ok, mapM_eq_ok, pure, Except.pure, Except.ok.injEq] at h
      obtain ⟨isl, hi, _, _, rfl⟩ := h
      obtain ⟨a1, a2⟩ := plotIslands_eq_ok hi
      refine ⟨by simp [EzConfig.depth, hl], isl.flatten ++ [.box 0 0 st.1 1 1 ly.depth], by simp, ?_⟩
      exact ⟨ly, isl.flatten, [], hl, by simp, a1, a2, rfl⟩

theorem plot_total {cfg : EzConfig}
    (hl : ∀ name ly, cfg.layers name = some ly → (∃ e, cfg.materials ly.material = some e) ∧
      ∀ i ∈ ly.geometry, ∀ z d, ∃ D, plotIsland cfg z d i = .ok D) :
    ∀ (n k : ℕ) (name : String) (L : List String), expand cfg n name = some L → n ≤ k →
      ∀ st, ∃ st', plotLayer cfg k name st = .ok st'
  | 0, k, name, L, h, _, _ => by simp [expand] at h
  | n + 1, 0, name, L, h, hk, _ => by omega
  | n + 1, k + 1, name, L, h, hk, st => by
    rw [plotLayer]
    rcases expand_eq_some.1 h with ⟨d, Ls, hs, hf, rfl⟩ | ⟨hs, ⟨ly, hly⟩, rfl⟩
    · simp only [hs]
      have key : ∀ (l : List String) (M : List (List String)), List.Forall₂ (fun x M => expand cfg n x = some M) l M →
          ∀ r, ∃ r', l.foldlM (fun st l => plotLayer cfg k l st) r = .ok r' := by
        intro l M hlM
        induction hlM with
        | nil => intro r; exact ⟨r, rfl⟩
        | cons h1 _ ih =>
          intro r
          obtain ⟨t, ht⟩ := plot_total hl n k _ _ h1 (by omega) r
          obtain ⟨r', hr'⟩ := ih t
          exact ⟨r', foldlM_cons_ok.2 ⟨t, ht, hr'⟩⟩
      cases hrep : d.rep with
      | none => exact key _ _ hf st
      | some r =>
        have rep : ∀ (l : List ℕ) (st : ℝ × List EzDrawn), ∃ st',
            l.foldlM (fun st _ => d.layers.foldlM (fun st l => plotLayer cfg k l st) st) st = .ok st' := by
          intro l
          induction l with
          | nil => intro st; exact ⟨st, rfl⟩
          | cons a l ih =>
            intro st
            obtain ⟨t, ht⟩ := key _ _ hf st
            obtain ⟨r', hr'⟩ := ih t
            exact ⟨r', foldlM_cons_ok.2 ⟨t, ht, hr'⟩⟩
        exact rep _ st
    · simp only [hs, hly]
      obtain ⟨⟨e, he⟩, hi⟩ := hl name ly hly
      have : ∃ isl, ly.geometry.mapM (plotIsland cfg st.1 ly.depth) = .ok isl := by
        have hi' := fun i (h : i ∈ ly.geometry) => hi i h st.1 ly.depth
        generalize ly.geometry = g at hi'
        induction g with
        | nil => exact ⟨[], rfl⟩
        | cons i g ih =>
          obtain ⟨D, hD⟩ := hi' i List.mem_cons_self
          obtain ⟨Ds, hDs⟩ := ih fun j hj => hi' j (List.mem_cons_of_mem _ hj)
          exact ⟨D :: Ds, mapM_eq_ok.2 (.cons hD (mapM_eq_ok.1 hDs))⟩
      obtain ⟨isl, hisl⟩ := this
      rw [hisl, ok_bind, he]
      exact ⟨_, rfl⟩

/-! ## Layers -/

theorem numbers_iff {i : EzIsland} {ps : List ℝ} : i.Numbers ps ↔ i.params = ps := by
  unfold EzIsland.Numbers EzIsland.params
  cases i.radius <;> cases i.size <;> simp [eq_comm]

theorem map_eq_two {f : ℝ → ℝ} {l : List ℝ} {x y z : ℝ} (h : l.map f = [x, y, z]) :
    ∃ x' y' z', l = [x', y', z'] ∧ x = f x' ∧ y = f y' ∧ z = f z' := by
  match l, h with
  | [a, b, c], h => simp at h; exact ⟨a, b, c, rfl, h.1.symm, h.2.1.symm, h.2.2.symm⟩
  | [], h => simp at h
  | [_], h => simp at h
  | [_, _], h => simp at h
  | _ :: _ :: _ :: _ :: _, h => simp at h

theorem map_eq_four {f : ℝ → ℝ} {l : List ℝ} {x y z t : ℝ} (h : l.map f = [x, y, z, t]) :
    ∃ x' y' z' t', l = [x', y', z', t'] ∧ x = f x' ∧ y = f y' ∧ z = f z' ∧ t = f t' := by
  match l, h with
  | [a, b, c, d], h => simp at h; exact ⟨a, b, c, d, rfl, h.1.symm, h.2.1.symm, h.2.2.1.symm, h.2.2.2.symm⟩
  | [], h => simp at h
  | [_], h => simp at h
  | [_, _], h => simp at h
  | [_, _, _], h => simp at h
  | _ :: _ :: _ :: _ :: _ :: _, h => simp at h

theorem ezShape_solved {i : EzIsland} {a : ℝ} {s : TShape} :
    ezShape i.shape (i.params.map (· * a)) = .ok s ↔ i.SolvedAs a s := by
  constructor
  · intro h
    generalize hps : i.params.map (· * a) = ps at h
    generalize hn : i.shape = nm at h
    unfold ezShape at h
    split at h <;> simp only [Except.ok.injEq, reduceCtorEq] at h
    · subst h
      obtain ⟨x', y', z', t', e, e1⟩ := map_eq_four hps
      exact ⟨hn, x', y', z', t', numbers_iff.2 e, e1⟩
    · subst h
      obtain ⟨x', y', z', e, e1⟩ := map_eq_two hps
      exact ⟨hn, x', y', z', numbers_iff.2 e, e1⟩
    · subst h
      exact ⟨hn, numbers_iff.2 (by simpa using hps)⟩
  · intro h
    match s, h with
    | .uniform, ⟨h1, h2⟩ => rw [h1, numbers_iff.1 h2]; rfl
    | .shape (.disc ..), ⟨h1, _, _, _, h2, rfl, rfl, rfl⟩ => rw [h1, numbers_iff.1 h2]; rfl
    | .shape (.rectangle ..), ⟨h1, _, _, _, _, h2, rfl, rfl, rfl, rfl⟩ => rw [h1, numbers_iff.1 h2]; rfl

theorem ezOptics_eq_ok {cfg : EzConfig} {ly : EzLayer} {islands : List (TShape × ℂ)} {host : ℂ} :
    ezOptics cfg ly = .ok (islands, host) ↔ ly.Optics cfg islands host := by
  unfold ezOptics EzLayer.Optics
  simp only [bind_eq_ok, pyKey_eq_ok, mapM_eq_ok, pure, Except.pure, Except.ok.injEq, Prod.mk.injEq, ezShape_solved]
  constructor
  · rintro ⟨e, he, isl, hi, rfl, rfl⟩
    refine ⟨⟨e, he, rfl⟩, hi.imp ?_⟩
    rintro i ⟨s, c⟩ ⟨ε, hε, s', hs, h⟩
    rw [Prod.mk.injEq] at h
    exact ⟨h.1 ▸ hs, ε, hε, h.2.symm⟩
  · rintro ⟨⟨e, he, rfl⟩, hi⟩
    refine ⟨e, he, islands, hi.imp ?_, rfl, rfl⟩
    rintro i ⟨s, c⟩ ⟨hs, ε, hε, h⟩
    exact ⟨ε, hε, s, hs, by rw [Prod.mk.injEq]; exact ⟨rfl, h.symm⟩⟩

theorem optics_unique {cfg : EzConfig} {ly : EzLayer} {is is' : List (TShape × ℂ)} {h h' : ℂ} (a : ly.Optics cfg is h)
    (b : ly.Optics cfg is' h') : is = is' ∧ h = h' := by
  have := (ezOptics_eq_ok.2 a).symm.trans (ezOptics_eq_ok.2 b)
  simpa using this

theorem lookup_forall₂ {M : Type} {P : String → M → Prop} {req : List String} {Ss : List (String × M)}
    (h : List.Forall₂ (fun x p => p.1 = x ∧ P x p.2) req Ss) {x : String} :
    (∀ S, Ss.lookup x = some S → x ∈ req ∧ P x S) ∧ (x ∈ req → ∃ S, Ss.lookup x = some S) := by
  induction h with
  | nil => simp
  | @cons y p req Ss h1 _ ih =>
    obtain ⟨rfl, hP⟩ := h1
    obtain ⟨y, S'⟩ := p
    simp only [List.lookup_cons]
    by_cases hxy : x = y
    · subst hxy
      simp only [beq_self_eq_true, Option.some.injEq]
      exact ⟨fun S e => ⟨List.mem_cons_self, e ▸ hP⟩, fun _ => ⟨S', rfl⟩⟩
    · have : (x == y) = false := by simpa using hxy
      simp only [this]
      refine ⟨fun S e => ?_, fun hx => ?_⟩
      · exact ⟨List.mem_cons_of_mem _ (ih.1 S e).1, (ih.1 S e).2⟩
      · rcases List.mem_cons.1 hx with rfl | hx
        · exact absurd rfl hxy
        · exact ih.2 hx

theorem ezLayers_eq_ok {jv1 : ℝ → ℝ} {cfg : EzConfig} {l : TLattice} {wl : ℝ} {kp : ℂ × ℂ} {req : List String}
    {Ss : List (String × Matrix (TIdx l.shape) (TIdx l.shape) ℂ)} (h : ezLayers jv1 cfg l wl kp req = .ok Ss) :
    List.Forall₂ (fun x p => p.1 = x ∧ ∃ ly, cfg.layers x = some ly ∧ ezSolve jv1 cfg l wl kp ly = .ok p.2) req Ss := by
  unfold ezLayers at h
  rw [mapM_eq_ok] at h
  refine h.imp ?_
  intro x p hx
  simp only [bind_eq_ok, pyKey_eq_ok, pure, Except.pure, Except.ok.injEq] at hx
  obtain ⟨ly, h1, S, h2, rfl⟩ := hx
  exact ⟨rfl, ly, h1, h2⟩

theorem relChain_conj {α V : Type} {R : α → V → V → Prop} {φ : V → V} (hφ : Function.Bijective φ) : ∀ {L : List α} {u w : V},
    RelChain (fun x u v => R x (φ u) (φ v)) L u w ↔ RelChain R L (φ u) (φ w)
  | [], u, w => by simp only [RelChain]; exact hφ.1.eq_iff.symm
  | x :: L, u, w => by
    simp only [RelChain, relChain_conj hφ (L := L)]
    exact (hφ.2.exists (p := fun v => R x (φ u) v ∧ RelChain R L v (φ w))).symm

/-- What `compute_spectrum` does at one point of the spectrum. -/
theorem ezDevice_eq_ok {jv1 : ℝ → ℝ} {cfg : EzConfig} {fuel : ℕ} {l : TLattice} {wl : ℝ} {kp : ℂ × ℂ} {device : String}
    {S : Matrix (TIdx l.shape) (TIdx l.shape) ℂ} : ezDevice jv1 cfg fuel l wl kp device = .ok S ↔
    ∃ req Ss Stot Si, gatherS cfg fuel device [] = .ok req ∧ 0 < req.length ∧ ezLayers jv1 cfg l wl kp req = .ok Ss ∧
      stackS cfg (fun name => Ss.lookup name) fuel device = .ok (some Stot) ∧ tmatInterface l wl kp = .ok Si ∧
      multS Stot Si = .ok S := by
  unfold ezDevice
  simp only [bind_eq_ok, pyCheck_eq_ok]
  constructor
  · rintro ⟨req, h1, _, h2, Ss, h3, St, h4, Si, h5, X, h6, h7⟩
    obtain ⟨A, B, C, rfl, e, rfl, h6⟩ := ezMatmul_eq_ok.1 h6
    cases e
    simp only [Except.ok.injEq] at h7
    subst h7
    exact ⟨req, Ss, A, Si, h1, h2, h3, h4, h5, h6⟩
  · rintro ⟨req, Ss, Stot, Si, h1, h2, h3, h4, h5, h6⟩
    exact ⟨req, h1, (), h2, Ss, h3, some Stot, h4, Si, h5, some S, ezMatmul_eq_ok.2 ⟨_, _, _, rfl, rfl, rfl, h6⟩, rfl⟩

end Khepri
