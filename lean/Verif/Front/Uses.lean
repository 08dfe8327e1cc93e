import Verif.Front.Module

/-!
# Which identifiers a tree uses

Free identifiers of trees (not of the typed expressions of the later phases), and what name resolution says about them: an identifier that is used is
visible where the tree stands, or declared in the tree.
-/

namespace Caesar
namespace Front

mutual

/-- `x` occurs free in the tree. Triggers are not part of the expressions of the later phases and do not count. -/
def RExpr.FreeId (x : Ident) : RExpr → Prop
  | .var _ y => x = y
  | .call _ _ args => FreeIdL x args
  | .ite _ c a b => c.FreeId x ∨ a.FreeId x ∨ b.FreeId x
  | .bin _ _ a b => a.FreeId x ∨ b.FreeId x
  | .un _ _ a => a.FreeId x
  | .cast _ a => a.FreeId x
  | .quant _ _ vs _ a => a.FreeId x ∧ x ∉ vs.map (·.var.id)
  | .subst _ y v a => v.FreeId x ∨ (a.FreeId x ∧ x ≠ y)
  | .lit _ _ => False

/-- `RExpr.FreeId` for lists. -/
def FreeIdL (x : Ident) : List RExpr → Prop
  | [] => False
  | e :: es => e.FreeId x ∨ FreeIdL x es

end

mutual

/-- `x` is used or assigned to in the statement, or declared by a variable declaration. The arguments of the annotations in `sl` do not count. -/
def RStmt.Uses (sl : Ident → Prop) (x : Ident) : RStmt → Prop
  | .seq ss => UsesB sl x ss
  | .var y _ none => x = y
  | .var y _ (some e) => x = y ∨ e.FreeId x
  | .assign lhs e => x ∈ lhs ∨ e.FreeId x
  | .havoc _ xs => x ∈ xs
  | .assert _ e => e.FreeId x
  | .assume _ e => e.FreeId x
  | .compare _ e => e.FreeId x
  | .negate _ => False
  | .validate _ => False
  | .tick e => e.FreeId x
  | .weigh e => e.FreeId x
  | .demonic a b => UsesB sl x a ∨ UsesB sl x b
  | .angelic a b => UsesB sl x a ∨ UsesB sl x b
  | .additive a b => UsesB sl x a ∨ UsesB sl x b
  | .ite c a b => c.FreeId x ∨ UsesB sl x a ∨ UsesB sl x b
  | .while c b => c.FreeId x ∨ UsesB sl x b
  | .annot f args s => (¬ sl f ∧ FreeIdL x args) ∨ s.Uses sl x
  | .label _ => False

/-- `RStmt.Uses` for blocks. -/
def UsesB (sl : Ident → Prop) (x : Ident) : List RStmt → Prop
  | [] => False
  | s :: ss => s.Uses sl x ∨ UsesB sl x ss

end

/-! ## Types and casts do not matter -/

mutual

theorem freeId_strip (x : Ident) : ∀ e : RExpr, e.strip.FreeId x ↔ e.FreeId x
  | .var _ y => Iff.rfl
  | .call _ f args => by simp only [RExpr.strip, RExpr.FreeId, freeIdL_strip x args]
  | .ite _ c a b => by simp only [RExpr.strip, RExpr.FreeId, freeId_strip x c, freeId_strip x a, freeId_strip x b]
  | .bin _ op a b => by simp only [RExpr.strip, RExpr.FreeId, freeId_strip x a, freeId_strip x b]
  | .un _ op a => by simp only [RExpr.strip, RExpr.FreeId, freeId_strip x a]
  | .cast _ a => by simp only [RExpr.strip, RExpr.FreeId, freeId_strip x a]
  | .quant _ op vs tr a => by simp only [RExpr.strip, RExpr.FreeId, freeId_strip x a]
  | .subst _ y v a => by simp only [RExpr.strip, RExpr.FreeId, freeId_strip x v, freeId_strip x a]
  | .lit _ l => Iff.rfl

theorem freeIdL_strip (x : Ident) : ∀ es : List RExpr, FreeIdL x (stripL es) ↔ FreeIdL x es
  | [] => Iff.rfl
  | e :: es => by simp only [stripL, FreeIdL, freeId_strip x e, freeIdL_strip x es]

end

mutual

theorem uses_strip (sl : Ident → Prop) (x : Ident) : ∀ s : RStmt, s.strip.Uses sl x ↔ s.Uses sl x
  | .seq ss => by simp only [RStmt.strip, RStmt.Uses, usesB_strip sl x ss]
  | .var y t none => by simp only [RStmt.strip, Option.map_none, RStmt.Uses]
  | .var y t (some e) => by simp only [RStmt.strip, Option.map_some, RStmt.Uses, freeId_strip x e]
  | .assign lhs e => by simp only [RStmt.strip, RStmt.Uses, freeId_strip x e]
  | .havoc d xs => Iff.rfl
  | .assert d e => by simp only [RStmt.strip, RStmt.Uses, freeId_strip x e]
  | .assume d e => by simp only [RStmt.strip, RStmt.Uses, freeId_strip x e]
  | .compare d e => by simp only [RStmt.strip, RStmt.Uses, freeId_strip x e]
  | .negate d => Iff.rfl
  | .validate d => Iff.rfl
  | .tick e => by simp only [RStmt.strip, RStmt.Uses, freeId_strip x e]
  | .weigh e => by simp only [RStmt.strip, RStmt.Uses, freeId_strip x e]
  | .demonic a b => by simp only [RStmt.strip, RStmt.Uses, usesB_strip sl x a, usesB_strip sl x b]
  | .angelic a b => by simp only [RStmt.strip, RStmt.Uses, usesB_strip sl x a, usesB_strip sl x b]
  | .additive a b => by simp only [RStmt.strip, RStmt.Uses, usesB_strip sl x a, usesB_strip sl x b]
  | .ite c a b => by simp only [RStmt.strip, RStmt.Uses, freeId_strip x c, usesB_strip sl x a, usesB_strip sl x b]
  | .while c b => by simp only [RStmt.strip, RStmt.Uses, freeId_strip x c, usesB_strip sl x b]
  | .annot f args s => by simp only [RStmt.strip, RStmt.Uses, freeIdL_strip x args, uses_strip sl x s]
  | .label l => Iff.rfl

theorem usesB_strip (sl : Ident → Prop) (x : Ident) : ∀ ss : List RStmt, UsesB sl x (stripB ss) ↔ UsesB sl x ss
  | [] => Iff.rfl
  | s :: ss => by simp only [stripB, UsesB, uses_strip sl x s, usesB_strip sl x ss]

end

/-! ## Used identifiers are visible -/

/-- The declaration is visible under some name. -/
def Env.Sees (env : Env) (x : Ident) : Prop := ∃ n, env.vis n = some x

theorem Env.Sees.of_bind {env env' : Env} {x y : Ident} (h : env'.Sees y) (hb : env.bind x = some env') : y = x ∨ env.Sees y := by
  unfold Env.bind at hb
  split at hb
  · exact nomatch hb
  · cases hb
    obtain ⟨n, hn⟩ := h
    by_cases hx : n = x.name
    · subst hx
      simp only [Function.update_self, Option.some.injEq] at hn
      exact .inl hn.symm
    · simp only [Function.update_of_ne hx] at hn
      exact .inr ⟨n, hn⟩

theorem Env.Sees.of_bindAll {y : Ident} : ∀ {xs : List Ident} {env env' : Env}, env'.Sees y → env.bindAll xs = some env' → y ∈ xs ∨ env.Sees y
  | [], env, env', h, hb => by
    simp only [Env.bindAll, Option.some.injEq] at hb
    exact .inr (hb ▸ h)
  | x :: xs, env, env', h, hb => by
    simp only [Env.bindAll, Option.bind_eq_bind, Option.bind_eq_some_iff] at hb
    obtain ⟨env₁, h1, h2⟩ := hb
    rcases h.of_bindAll h2 with h | h
    · exact .inl (.tail _ h)
    · rcases h.of_bind h1 with rfl | h
      · exact .inl (.head _)
      · exact .inr h

theorem uses_sees {env : Env} {y : Ident} : ∀ {xs xs' : List Ident}, env.uses xs = some xs' → y ∈ xs' → env.Sees y
  | [], xs', h, hy => by
    simp only [Env.uses, Option.some.injEq] at h
    subst h
    exact nomatch hy
  | x :: xs, xs', h, hy => by
    simp only [Env.uses, Option.bind_eq_bind, Option.bind_eq_some_iff, Option.pure_def, Option.some.injEq] at h
    obtain ⟨z, hz, zs, hzs, rfl⟩ := h
    rcases List.mem_cons.1 hy with rfl | hy
    · exact ⟨_, hz⟩
    · exact uses_sees hzs hy

mutual

theorem lexE_sees {y : Ident} : ∀ (e : RExpr) {env : Env} {e' : RExpr}, lexE env e = some e' → e'.FreeId y → env.Sees y
  | .var t x, env, r, h, hy => by
    simp only [lexE, Option.bind_eq_bind, Option.bind_eq_some_iff, Option.pure_def, Option.some.injEq] at h
    obtain ⟨z, hz, rfl⟩ := h
    simp only [RExpr.FreeId] at hy
    exact ⟨_, hy ▸ hz⟩
  | .call t f args, env, r, h, hy => by
    simp only [lexE, Option.bind_eq_bind, Option.bind_eq_some_iff, Option.pure_def, Option.some.injEq] at h
    obtain ⟨g, hg, as, has, rfl⟩ := h
    simp only [RExpr.FreeId] at hy
    exact lexL_sees args has hy
  | .ite t c a b, env, r, h, hy => by
    simp only [lexE, Option.bind_eq_bind, Option.bind_eq_some_iff, Option.pure_def, Option.some.injEq] at h
    obtain ⟨c', hc, a', ha, b', hb, rfl⟩ := h
    simp only [RExpr.FreeId] at hy
    rcases hy with hy | hy | hy
    · exact lexE_sees c hc hy
    · exact lexE_sees a ha hy
    · exact lexE_sees b hb hy
  | .bin t op a b, env, r, h, hy => by
    simp only [lexE, Option.bind_eq_bind, Option.bind_eq_some_iff, Option.pure_def, Option.some.injEq] at h
    obtain ⟨a', ha, b', hb, rfl⟩ := h
    simp only [RExpr.FreeId] at hy
    rcases hy with hy | hy
    · exact lexE_sees a ha hy
    · exact lexE_sees b hb hy
  | .un t op a, env, r, h, hy => by
    simp only [lexE, Option.bind_eq_bind, Option.bind_eq_some_iff, Option.pure_def, Option.some.injEq] at h
    obtain ⟨a', ha, rfl⟩ := h
    simp only [RExpr.FreeId] at hy
    exact lexE_sees a ha hy
  | .cast t a, env, r, h, hy => by
    simp only [lexE, Option.bind_eq_bind, Option.bind_eq_some_iff, Option.pure_def, Option.some.injEq] at h
    obtain ⟨a', ha, rfl⟩ := h
    simp only [RExpr.FreeId] at hy
    exact lexE_sees a ha hy
  | .quant t op vs tr a, env, r, h, hy => by
    simp only [lexE, Option.bind_eq_bind, Option.bind_eq_some_iff, Option.pure_def, Option.some.injEq] at h
    obtain ⟨inner, hi, tr', htr, a', ha, rfl⟩ := h
    simp only [RExpr.FreeId] at hy
    rcases (lexE_sees a ha hy.1).of_bindAll hi with h | h
    · exact (hy.2 h).elim
    · exact h
  | .subst t x v a, env, r, h, hy => by
    simp only [lexE, Option.bind_eq_bind, Option.bind_eq_some_iff, Option.pure_def, Option.some.injEq] at h
    obtain ⟨v', hv, inner, hi, a', ha, rfl⟩ := h
    simp only [RExpr.FreeId] at hy
    rcases hy with hy | ⟨hy, hx⟩
    · exact lexE_sees v hv hy
    · rcases (lexE_sees a ha hy).of_bind hi with h | h
      · exact (hx h).elim
      · exact h
  | .lit t l, env, r, h, hy => by
    simp only [lexE, Option.pure_def, Option.some.injEq] at h
    subst h
    simp only [RExpr.FreeId] at hy

theorem lexL_sees {y : Ident} : ∀ (es : List RExpr) {env : Env} {es' : List RExpr}, lexL env es = some es' → FreeIdL y es' → env.Sees y
  | [], env, es', h, hy => by
    simp only [lexL, Option.pure_def, Option.some.injEq] at h
    subst h
    simp only [FreeIdL] at hy
  | e :: es, env, es', h, hy => by
    simp only [lexL, Option.bind_eq_bind, Option.bind_eq_some_iff, Option.pure_def, Option.some.injEq] at h
    obtain ⟨e', he, es₁, hes, rfl⟩ := h
    simp only [FreeIdL] at hy
    rcases hy with hy | hy
    · exact lexE_sees e he hy
    · exact lexL_sees es hes hy

end

/-! ## Declarations of a statement for the rest of its block -/

/-- What a statement declares for the rest of its block. -/
def RStmt.top (anns : Anns) : RStmt → List Ident
  | .var x _ _ => [x]
  | .annot f args _ =>
    match anns f.name with
    | some (_, k) => (bindsArgs k args).map Prod.fst
    | none => []
  | .label l => [l]
  | _ => []

/-- The identifiers declared in a statement. -/
def RStmt.ids (anns : Anns) (s : RStmt) : List Ident := (bindsS anns s).map Prod.fst

/-- The identifiers declared in a block. -/
def idsB (anns : Anns) (ss : List RStmt) : List Ident := (bindsB anns ss).map Prod.fst

theorem Env.Sees.of_args {k : AnnKind} {args args' : List RExpr} {env env' : Env} (h : lexArgs env k args = some (args', env')) {y : Ident}
    (hy : env'.Sees y) : env.Sees y ∨ y ∈ (bindsArgs k args).map Prod.fst := by
  unfold lexArgs at h
  split at h
  · cases h; exact .inl hy
  · cases h; exact .inl hy
  · simp only [Option.bind_eq_bind, Option.bind_eq_some_iff, Option.pure_def, Option.some.injEq, Prod.mk.injEq] at h
    obtain ⟨env₁, h1, as, h2, rfl, rfl⟩ := h
    rcases hy.of_bind h1 with rfl | h
    · exact .inr (by simp [bindsArgs])
    · exact .inl h
  · exact nomatch h
  · simp only [Option.bind_eq_bind, Option.bind_eq_some_iff, Option.pure_def, Option.some.injEq, Prod.mk.injEq] at h
    obtain ⟨i', hi, v', hv, env₁, h1, p', hp, d', hd, rfl, rfl⟩ := h
    rcases hy.of_bind h1 with rfl | h
    · exact .inr (by simp [bindsArgs])
    · exact .inl h
  · exact nomatch h
  · simp only [Option.bind_eq_bind, Option.bind_eq_some_iff, Option.pure_def, Option.some.injEq, Prod.mk.injEq] at h
    obtain ⟨as, h2, rfl, rfl⟩ := h
    exact .inl hy

theorem lexArgs_sees {k : AnnKind} {args args' : List RExpr} {env env' : Env} (h : lexArgs env k args = some (args', env')) {y : Ident}
    (hk : ∀ j m, k ≠ .slice j m) (hy : FreeIdL y args') : env'.Sees y ∨ env.Sees y := by
  unfold lexArgs at h
  split at h
  · exact (hk _ _ rfl).elim
  · cases h; exact hy.elim
  · simp only [Option.bind_eq_bind, Option.bind_eq_some_iff, Option.pure_def, Option.some.injEq, Prod.mk.injEq] at h
    obtain ⟨env₁, h1, as, h2, rfl, rfl⟩ := h
    simp only [FreeIdL, RExpr.FreeId] at hy
    rcases hy with rfl | hy
    · refine .inl ⟨y.name, ?_⟩
      unfold Env.bind at h1
      split at h1
      · exact nomatch h1
      · cases h1; simp
    · exact .inl (lexL_sees _ h2 hy)
  · exact nomatch h
  · simp only [Option.bind_eq_bind, Option.bind_eq_some_iff, Option.pure_def, Option.some.injEq, Prod.mk.injEq] at h
    obtain ⟨i', hi, v', hv, env₁, h1, p', hp, d', hd, rfl, rfl⟩ := h
    simp only [FreeIdL, RExpr.FreeId] at hy
    rcases hy with hy | hy | rfl | hy | hy | hy
    · exact .inr (lexE_sees _ hi hy)
    · exact .inr (lexE_sees _ hv hy)
    · refine .inl ⟨y.name, ?_⟩
      unfold Env.bind at h1
      split at h1
      · exact nomatch h1
      · cases h1; simp
    · exact .inl (lexE_sees _ hp hy)
    · exact .inl (lexE_sees _ hd hy)
    · exact hy.elim
  · exact nomatch h
  · simp only [Option.bind_eq_bind, Option.bind_eq_some_iff, Option.pure_def, Option.some.injEq, Prod.mk.injEq] at h
    obtain ⟨as, h2, rfl, rfl⟩ := h
    exact .inr (lexL_sees _ h2 hy)

/-- What is visible after a statement. -/
theorem Env.Sees.of_stmt {anns : Anns} {s s' : RStmt} {env env' : Env} (h : lexS anns env s = some (s', env')) {y : Ident}
    (hy : env'.Sees y) : env.Sees y ∨ y ∈ s.top anns := by
  cases s with
  | var x t i =>
    cases i with
    | none =>
      simp only [lexS, Option.bind_eq_bind, Option.bind_eq_some_iff, Option.pure_def, Option.some.injEq, Prod.mk.injEq] at h
      obtain ⟨env₁, h1, rfl, rfl⟩ := h
      exact (hy.of_bind h1).symm.imp id fun h => by simp [RStmt.top, h]
    | some e =>
      simp only [lexS, Option.bind_eq_bind, Option.bind_eq_some_iff, Option.pure_def, Option.some.injEq, Prod.mk.injEq] at h
      obtain ⟨e', he, env₁, h1, rfl, rfl⟩ := h
      exact (hy.of_bind h1).symm.imp id fun h => by simp [RStmt.top, h]
  | label l =>
    simp only [lexS, Option.bind_eq_bind, Option.bind_eq_some_iff, Option.pure_def, Option.some.injEq, Prod.mk.injEq] at h
    obtain ⟨env₁, h1, rfl, rfl⟩ := h
    exact (hy.of_bind h1).symm.imp id fun h => by simp [RStmt.top, h]
  | annot f args s =>
    simp only [lexS, Option.bind_eq_bind, Option.bind_eq_some_iff, Option.pure_def, Option.some.injEq, Prod.mk.injEq, Prod.exists] at h
    obtain ⟨g, k, hg, as, env₁, h1, s₁, env₂, h2, rfl, rfl⟩ := h
    have := hy.of_args h1
    simpa only [RStmt.top, hg] using this
  | _ =>
    simp only [lexS, Option.bind_eq_bind, Option.bind_eq_some_iff, Option.pure_def, Option.some.injEq, Prod.mk.injEq] at h
    repeat' obtain ⟨_, h⟩ := h
    exact .inl (by subst_vars; exact hy)

theorem top_ids {anns : Anns} {s : RStmt} {y : Ident} (h : y ∈ s.top anns) : y ∈ s.ids anns := by
  cases s with
  | var x t i => cases i <;> simp_all [RStmt.top, RStmt.ids, bindsS]
  | label l => simp_all [RStmt.top, RStmt.ids, bindsS]
  | annot f args s =>
    simp only [RStmt.top] at h
    simp only [RStmt.ids, bindsS, List.map_append]
    refine List.mem_append_left _ ?_
    split at h
    · rename_i g k hg
      simpa only [hg] using h
    · exact nomatch h
  | _ => exact nomatch h

mutual

theorem lexS_sees {anns : Anns} {sl : Ident → Prop} (hA : ∀ n g k, anns n = some (g, k) → ¬ sl g → ∀ j m, k ≠ .slice j m) {y : Ident} :
    ∀ (s : RStmt) {env env' : Env} {s' : RStmt}, lexS anns env s = some (s', env') → s'.Uses sl y → env.Sees y ∨ y ∈ s.ids anns
  | .seq ss, env, env', s', h, hy => by
    simp only [lexS, Option.bind_eq_bind, Option.bind_eq_some_iff, Option.pure_def, Option.some.injEq, Prod.mk.injEq] at h
    obtain ⟨ss', h1, rfl, rfl⟩ := h
    exact lexB_sees (env := env.sub) hA ss h1 hy
  | .var x t none, env, env', s', h, hy => by
    simp only [lexS, Option.bind_eq_bind, Option.bind_eq_some_iff, Option.pure_def, Option.some.injEq, Prod.mk.injEq] at h
    obtain ⟨env₁, h1, rfl, rfl⟩ := h
    simp only [RStmt.Uses] at hy
    exact .inr (by simp [RStmt.ids, bindsS, hy])
  | .var x t (some e), env, env', s', h, hy => by
    simp only [lexS, Option.bind_eq_bind, Option.bind_eq_some_iff, Option.pure_def, Option.some.injEq, Prod.mk.injEq] at h
    obtain ⟨e', he, env₁, h1, rfl, rfl⟩ := h
    simp only [RStmt.Uses] at hy
    rcases hy with hy | hy
    · exact .inr (by simp [RStmt.ids, bindsS, hy])
    · exact .inl (lexE_sees e he hy)
  | .assign lhs e, env, env', s', h, hy => by
    simp only [lexS, Option.bind_eq_bind, Option.bind_eq_some_iff, Option.pure_def, Option.some.injEq, Prod.mk.injEq] at h
    obtain ⟨lhs', hl, e', he, rfl, rfl⟩ := h
    simp only [RStmt.Uses] at hy
    rcases hy with hy | hy
    · exact .inl (uses_sees hl hy)
    · exact .inl (lexE_sees e he hy)
  | .havoc d xs, env, env', s', h, hy => by
    simp only [lexS, Option.bind_eq_bind, Option.bind_eq_some_iff, Option.pure_def, Option.some.injEq, Prod.mk.injEq] at h
    obtain ⟨xs', hl, rfl, rfl⟩ := h
    exact .inl (uses_sees hl hy)
  | .assert d e, env, env', s', h, hy => by
    simp only [lexS, Option.bind_eq_bind, Option.bind_eq_some_iff, Option.pure_def, Option.some.injEq, Prod.mk.injEq] at h
    obtain ⟨e', he, rfl, rfl⟩ := h
    exact .inl (lexE_sees e he hy)
  | .assume d e, env, env', s', h, hy => by
    simp only [lexS, Option.bind_eq_bind, Option.bind_eq_some_iff, Option.pure_def, Option.some.injEq, Prod.mk.injEq] at h
    obtain ⟨e', he, rfl, rfl⟩ := h
    exact .inl (lexE_sees e he hy)
  | .compare d e, env, env', s', h, hy => by
    simp only [lexS, Option.bind_eq_bind, Option.bind_eq_some_iff, Option.pure_def, Option.some.injEq, Prod.mk.injEq] at h
    obtain ⟨e', he, rfl, rfl⟩ := h
    exact .inl (lexE_sees e he hy)
  | .negate d, env, env', s', h, hy => by
    simp only [lexS, Option.pure_def, Option.some.injEq, Prod.mk.injEq] at h
    obtain ⟨rfl, rfl⟩ := h
    exact hy.elim
  | .validate d, env, env', s', h, hy => by
    simp only [lexS, Option.pure_def, Option.some.injEq, Prod.mk.injEq] at h
    obtain ⟨rfl, rfl⟩ := h
    exact hy.elim
  | .tick e, env, env', s', h, hy => by
    simp only [lexS, Option.bind_eq_bind, Option.bind_eq_some_iff, Option.pure_def, Option.some.injEq, Prod.mk.injEq] at h
    obtain ⟨e', he, rfl, rfl⟩ := h
    exact .inl (lexE_sees e he hy)
  | .weigh e, env, env', s', h, hy => by
    simp only [lexS, Option.bind_eq_bind, Option.bind_eq_some_iff, Option.pure_def, Option.some.injEq, Prod.mk.injEq] at h
    obtain ⟨e', he, rfl, rfl⟩ := h
    exact .inl (lexE_sees e he hy)
  | .demonic a b, env, env', s', h, hy => by
    simp only [lexS, Option.bind_eq_bind, Option.bind_eq_some_iff, Option.pure_def, Option.some.injEq, Prod.mk.injEq] at h
    obtain ⟨a', ha, b', hb, rfl, rfl⟩ := h
    simp only [RStmt.Uses] at hy
    simp only [RStmt.ids, bindsS, List.map_append, List.mem_append]
    rcases hy with hy | hy
    · exact (lexB_sees hA a ha hy).imp id .inl
    · exact (lexB_sees hA b hb hy).imp id .inr
  | .angelic a b, env, env', s', h, hy => by
    simp only [lexS, Option.bind_eq_bind, Option.bind_eq_some_iff, Option.pure_def, Option.some.injEq, Prod.mk.injEq] at h
    obtain ⟨a', ha, b', hb, rfl, rfl⟩ := h
    simp only [RStmt.Uses] at hy
    simp only [RStmt.ids, bindsS, List.map_append, List.mem_append]
    rcases hy with hy | hy
    · exact (lexB_sees hA a ha hy).imp id .inl
    · exact (lexB_sees hA b hb hy).imp id .inr
  | .additive a b, env, env', s', h, hy => by
    simp only [lexS, Option.bind_eq_bind, Option.bind_eq_some_iff, Option.pure_def, Option.some.injEq, Prod.mk.injEq] at h
    obtain ⟨a', ha, b', hb, rfl, rfl⟩ := h
    simp only [RStmt.Uses] at hy
    simp only [RStmt.ids, bindsS, List.map_append, List.mem_append]
    rcases hy with hy | hy
    · exact (lexB_sees hA a ha hy).imp id .inl
    · exact (lexB_sees hA b hb hy).imp id .inr
  | .ite c a b, env, env', s', h, hy => by
    simp only [lexS, Option.bind_eq_bind, Option.bind_eq_some_iff, Option.pure_def, Option.some.injEq, Prod.mk.injEq] at h
    obtain ⟨c', hc, a', ha, b', hb, rfl, rfl⟩ := h
    simp only [RStmt.Uses] at hy
    simp only [RStmt.ids, bindsS, List.map_append, List.mem_append]
    rcases hy with hy | hy | hy
    · exact .inl (lexE_sees c hc hy)
    · exact (lexB_sees hA a ha hy).imp id fun h => .inr (.inl h)
    · exact (lexB_sees hA b hb hy).imp id fun h => .inr (.inr h)
  | .while c b, env, env', s', h, hy => by
    simp only [lexS, Option.bind_eq_bind, Option.bind_eq_some_iff, Option.pure_def, Option.some.injEq, Prod.mk.injEq] at h
    obtain ⟨c', hc, b', hb, rfl, rfl⟩ := h
    simp only [RStmt.Uses] at hy
    simp only [RStmt.ids, bindsS, List.map_append, List.mem_append]
    rcases hy with hy | hy
    · exact .inl (lexE_sees c hc hy)
    · exact (lexB_sees hA b hb hy).imp id .inr
  | .annot f args s, env, env', s', h, hy => by
    simp only [lexS, Option.bind_eq_bind, Option.bind_eq_some_iff, Option.pure_def, Option.some.injEq, Prod.mk.injEq, Prod.exists] at h
    obtain ⟨g, k, hg, as, env₁, h1, s₁, env₂, h2, rfl, rfl⟩ := h
    simp only [RStmt.Uses] at hy
    simp only [RStmt.ids, bindsS, hg, List.map_append, List.mem_append]
    have harg : env₁.Sees y → env.Sees y ∨ y ∈ (bindsArgs k args).map Prod.fst := fun h => h.of_args h1
    rcases hy with ⟨hs, hy⟩ | hy
    · rcases lexArgs_sees h1 (hA _ _ _ hg hs) hy with h | h
      · exact (harg h).imp id .inl
      · exact .inl h
    · rcases lexS_sees hA s h2 hy with h | h
      · exact (harg h).imp id .inl
      · exact .inr (.inr h)
  | .label l, env, env', s', h, hy => by
    simp only [lexS, Option.bind_eq_bind, Option.bind_eq_some_iff, Option.pure_def, Option.some.injEq, Prod.mk.injEq] at h
    obtain ⟨env₁, h1, rfl, rfl⟩ := h
    exact hy.elim

theorem lexB_sees {anns : Anns} {sl : Ident → Prop} (hA : ∀ n g k, anns n = some (g, k) → ¬ sl g → ∀ j m, k ≠ .slice j m) {y : Ident} :
    ∀ (ss : List RStmt) {env : Env} {ss' : List RStmt}, lexB anns env ss = some ss' → UsesB sl y ss' → env.Sees y ∨ y ∈ idsB anns ss
  | [], env, ss', h, hy => by
    simp only [lexB, Option.pure_def, Option.some.injEq] at h
    subst h
    exact hy.elim
  | s :: ss, env, ss', h, hy => by
    simp only [lexB, Option.bind_eq_bind, Option.bind_eq_some_iff, Option.pure_def, Option.some.injEq, Prod.exists] at h
    obtain ⟨s', env₁, h1, ss₁, h2, rfl⟩ := h
    simp only [UsesB] at hy
    simp only [idsB, bindsB, List.map_append, List.mem_append]
    rcases hy with hy | hy
    · exact (lexS_sees hA s h1 hy).imp id .inl
    · rcases lexB_sees hA ss h2 hy with h | h
      · exact (h.of_stmt h1).imp id fun h => .inl (top_ids h)
      · exact .inr (.inr h)

end

end Front
end Caesar
