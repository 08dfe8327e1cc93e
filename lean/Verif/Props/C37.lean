import Verif.TyCtx

/-!
# C37: fresh identifiers never collide
-/

namespace Caesar

/-- A fresh identifier is not declared. Nothing is assumed about the symbol table; in particular it may contain
user variables such as `x_0`, `x_1`. -/
theorem C37_fresh_not_declared {c c' : TyCtx} {x new : Ident} {span : Nat}
    (h : c.freshIdent x span = some (new, c')) : new ∉ c.decls := by
  obtain ⟨i, _, _, h3, _⟩ := TyCtx.freshLoop_spec h
  exact h3

/-- The (unbounded) loop generating an identifier always terminates: from some number of rounds on, the result is
there and does not depend on the bound; it is the one returned by the model of `fresh_ident`. -/
theorem C37_terminates (c : TyCtx) (x : Ident) (span : Nat) :
    ∃ r, c.freshIdent x span = some r ∧ ∀ fuel, c.decls.length < fuel → c.freshLoop x span fuel = some r := by
  obtain ⟨new, c', h⟩ := c.freshIdent_some x span
  refine ⟨_, h, fun fuel hf => ?_⟩
  have := TyCtx.freshLoop_mono h (fuel - (c.decls.length + 1))
  rwa [show c.decls.length + 1 + (fuel - (c.decls.length + 1)) = fuel by omega] at this

/-- Operations on the symbol table (`undeclare` is only used when whole units are removed). -/
inductive SymOp where
  | declare (x : Ident)
  | undeclare (x : Ident)
  | fresh (x : Ident) (span : Nat)
  | clone (v : Var) (span : Nat)

/-- One operation; the second component is the identifier which is returned as fresh. -/
def TyCtx.step (c : TyCtx) : SymOp → Option (TyCtx × Option Ident)
  | .declare x => (c.declare x).map fun c => (c, none)
  | .undeclare x => (c.undeclare x).map fun c => (c, none)
  | .fresh x span => (c.freshIdent x span).map fun r => (r.2, some r.1)
  | .clone v span => (c.cloneVar v span).map fun r => (r.2, some r.1.id)

/-- `Hist c l c'`: some history leads from `c` to `c'`, and `l` lists the operations with the symbol
table in which they were executed and the identifier they returned. -/
inductive Hist : TyCtx → List (TyCtx × SymOp × Option Ident) → TyCtx → Prop where
  | nil (c) : Hist c [] c
  | cons {c c' c'' o r l} : c.step o = some (c', r) → Hist c' l c'' → Hist c ((c, o, r) :: l) c''

/-- In every history every identifier returned as fresh differs from everything declared at that moment. -/
theorem C37_history_fresh {c c' : TyCtx} {l} (h : Hist c l c') :
    ∀ s o new, (s, o, some new) ∈ l → new ∉ s.decls := by
  induction h with
  | nil => intro s o new h; cases h
  | @cons c c' c'' o r l hs _ ih =>
    intro s o' new hm
    rcases List.mem_cons.1 hm with hm | hm
    · cases hm
      cases o with
      | declare x => cases hd : c.declare x <;> simp [TyCtx.step, hd] at hs
      | undeclare x => cases hd : c.undeclare x <;> simp [TyCtx.step, hd] at hs
      | fresh x span =>
        cases hd : c.freshIdent x span with
        | none => simp [TyCtx.step, hd] at hs
        | some r =>
          simp only [TyCtx.step, hd, Option.map_some, Option.some.injEq, Prod.mk.injEq] at hs
          rw [← hs.2]
          exact C37_fresh_not_declared hd
      | clone v span =>
        cases hd : c.cloneVar v span with
        | none => simp [TyCtx.step, hd] at hs
        | some r =>
          simp only [TyCtx.step, hd, Option.map_some, Option.some.injEq, Prod.mk.injEq] at hs
          rw [← hs.2]
          exact (TyCtx.cloneVar_spec hd).2.1
    · exact ih s o' new hm

/-- Cloning variables repeatedly: all clones are pairwise different and different from everything declared before. -/
theorem C37_clones_distinct {c c' : TyCtx} {l} (h : Hist c l c') (hu : ∀ e ∈ l, ∀ x, e.2.1 ≠ .undeclare x) :
    let clones := l.filterMap fun e => match e.2.1 with | .clone _ _ => e.2.2 | _ => none
    clones.Nodup ∧ (∀ n ∈ clones, n ∉ c.decls ∧ n ∈ c'.decls) ∧ c.decls ⊆ c'.decls := by
  induction h with
  | nil => simp
  | @cons c c' c'' o r l hs hh ih =>
    obtain ⟨h1, h2, h3⟩ := ih fun e he => hu e (List.mem_cons_of_mem _ he)
    cases o with
    | undeclare x => exact absurd rfl (hu _ List.mem_cons_self x)
    | declare x =>
      cases hd : c.declare x with
      | none => simp [TyCtx.step, hd] at hs
      | some c1 =>
        simp only [TyCtx.step, hd, Option.map_some, Option.some.injEq, Prod.mk.injEq] at hs
        obtain ⟨rfl, rfl⟩ := hs
        have hsub : c.decls ⊆ c1.decls := by
          unfold TyCtx.declare at hd
          split at hd
          · cases hd
          · cases hd; exact List.subset_cons_self _ _
        refine ⟨h1, fun n hn => ⟨fun hc => (h2 n hn).1 (hsub hc), (h2 n hn).2⟩, fun x hx => h3 (hsub hx)⟩
    | fresh x span =>
      cases hd : c.freshIdent x span with
      | none => simp [TyCtx.step, hd] at hs
      | some q =>
        simp only [TyCtx.step, hd, Option.map_some, Option.some.injEq, Prod.mk.injEq] at hs
        obtain ⟨hq, rfl⟩ := hs
        obtain ⟨i, _, _, _, h4, _⟩ := TyCtx.freshLoop_spec hd
        rw [hq] at h4
        rw [h4] at h2 h3
        exact ⟨h1, h2, h3⟩
    | clone v span =>
      cases hd : c.cloneVar v span with
      | none => simp [TyCtx.step, hd] at hs
      | some q =>
        simp only [TyCtx.step, hd, Option.map_some, Option.some.injEq, Prod.mk.injEq] at hs
        obtain ⟨hq, rfl⟩ := hs
        obtain ⟨_, h4, h5, _⟩ := TyCtx.cloneVar_spec hd
        rw [hq] at h5
        rw [h5] at h2 h3
        refine ⟨?_, ?_, fun x hx => h3 (List.mem_cons_of_mem _ hx)⟩
        · simp only [List.filterMap_cons]
          refine List.nodup_cons.2 ⟨fun hn => (h2 _ hn).1 List.mem_cons_self, h1⟩
        · intro n hn
          simp only [List.filterMap_cons] at hn
          rcases List.mem_cons.1 hn with rfl | hn
          · exact ⟨h4, h3 List.mem_cons_self⟩
          · exact ⟨fun hc => (h2 n hn).1 (List.mem_cons_of_mem _ hc), (h2 n hn).2⟩

/-- Non-vacuity: with `x` and a user-declared `x_0` present, cloning `x` skips `x_0`. -/
example : ∃ c', (TyCtx.mk [⟨"x", 1⟩, ⟨"x_0", 2⟩] fun _ => none).cloneVar ⟨⟨"x", 1⟩, .uint⟩ 2
    = some (⟨⟨"x_1", 2⟩, .uint⟩, c') := ⟨_, rfl⟩

/-- Two fresh identifiers requested without declaring the first one may coincide if the originals differ only in
their span, so callers have to declare. -/
theorem C37_undeclared_fresh_may_collide : ∃ (c c₁ c₂ : TyCtx) (x y new : Ident), x ≠ y ∧
    c.freshIdent x 0 = some (new, c₁) ∧ c₁.freshIdent y 0 = some (new, c₂) :=
  ⟨.new, _, _, ⟨"x", 1⟩, ⟨"x", 2⟩, _, by decide, rfl, rfl⟩

/-- The counter of an identifier never goes back: asking twice for a fresh version of the same identifier gives
different identifiers even if the first one has not been declared. -/
theorem C37_counter_advances {c c₁ c₂ : TyCtx} {x n₁ n₂ : Ident} {s₁ s₂ : Nat}
    (h₁ : c.freshIdent x s₁ = some (n₁, c₁)) (h₂ : c₁.freshIdent x s₂ = some (n₂, c₂)) : n₁ ≠ n₂ := by
  obtain ⟨i, _, h2, _, _, h5, _⟩ := TyCtx.freshLoop_spec h₁
  obtain ⟨j, h1', h2', _⟩ := TyCtx.freshLoop_spec h₂
  intro he
  have hij : i < j := by omega
  rw [h2, h2'] at he
  have h4 : s₁ = s₂ := congrArg Ident.span he
  subst h4
  have := TyCtx.freshName_inj he
  omega

example : ∃ c₁ c₂ n₁ n₂, TyCtx.new.freshIdent ⟨"x", 0⟩ 0 = some (n₁, c₁) ∧
    c₁.freshIdent ⟨"x", 0⟩ 0 = some (n₂, c₂) := ⟨_, _, _, _, rfl, rfl⟩

end Caesar
