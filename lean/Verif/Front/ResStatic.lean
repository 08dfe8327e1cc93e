import Verif.Front.LexCongr
import Verif.Front.TyUse

/-!
# Trees after name resolution

What name resolution accepts satisfies the conditions that the theorems about the type checker need.
-/

namespace Caesar
namespace Front

/-- The declarations are in the context. -/
def DeclsIn (Γ : Ctx) (ds : List (Ident × RDecl)) : Prop := ∀ d ∈ ds, Γ d.1 = some d.2

theorem DeclsIn.left {Γ : Ctx} {ds es : List (Ident × RDecl)} (h : DeclsIn Γ (ds ++ es)) : DeclsIn Γ ds :=
  fun d hd => h d (List.mem_append_left _ hd)

theorem DeclsIn.right {Γ : Ctx} {ds es : List (Ident × RDecl)} (h : DeclsIn Γ (ds ++ es)) : DeclsIn Γ es :=
  fun d hd => h d (List.mem_append_right _ hd)

theorem DeclsIn.head {Γ : Ctx} {d : Ident × RDecl} {es : List (Ident × RDecl)} (h : DeclsIn Γ (d :: es)) : Γ d.1 = some d.2 :=
  h d List.mem_cons_self

theorem DeclsIn.tail {Γ : Ctx} {d : Ident × RDecl} {es : List (Ident × RDecl)} (h : DeclsIn Γ (d :: es)) : DeclsIn Γ es :=
  fun e he => h e (List.mem_cons_of_mem _ he)

/-- Variables without a type are visible inside of their `let` only. -/
def VisOk (Γ : Ctx) (bound : List Ident) (env : Env) : Prop :=
  ∀ n x, env.vis n = some x → (∃ k, Γ x = some (.var .none k)) → x ∈ bound

theorem VisOk.bind {Γ : Ctx} {bound : List Ident} {env env' : Env} (h : VisOk Γ bound env) {x : Ident} (hb : env.bind x = some env')
    {bound' : List Ident} (hs : ∀ y ∈ bound, y ∈ bound') (hx : (∃ k, Γ x = some (.var .none k)) → x ∈ bound') : VisOk Γ bound' env' := by
  unfold Env.bind at hb
  split at hb
  · exact nomatch hb
  · cases hb
    intro n y hy hk
    by_cases hn : n = x.name
    · subst hn
      simp only [Function.update_self, Option.some.injEq] at hy
      subst hy
      exact hx hk
    · simp only [Function.update_of_ne hn] at hy
      exact hs y (h n y hy hk)

theorem VisOk.bindAll {Γ : Ctx} {bound : List Ident} : ∀ {xs : List Ident} {env env' : Env}, VisOk Γ bound env →
    env.bindAll xs = some env' → (∀ x ∈ xs, ∀ k, Γ x ≠ some (.var .none k)) → VisOk Γ bound env'
  | [], env, env', h, hb, _ => by
    simp only [Env.bindAll, Option.some.injEq] at hb
    exact hb ▸ h
  | x :: xs, env, env', h, hb, hx => by
    simp only [Env.bindAll, Option.bind_eq_bind, Option.bind_eq_some_iff] at hb
    obtain ⟨env₁, h1, h2⟩ := hb
    exact (h.bind h1 (fun _ h => h) fun ⟨k, hk⟩ => (hx x List.mem_cons_self k hk).elim).bindAll h2
      fun y hy => hx y (List.mem_cons_of_mem _ hy)

theorem VisOk.sub {Γ : Ctx} {bound : List Ident} {env : Env} (h : VisOk Γ bound env) : VisOk Γ bound env.sub := h

mutual

theorem lexE_static {Γ : Ctx} : ∀ (e : RExpr) {bound : List Ident} {env : Env} {e' : RExpr}, lexE env e = some e' → VisOk Γ bound env →
    DeclsIn Γ (bindsE e) → e'.InScope Γ bound ∧ e'.lets = e.lets ∧ (e.Plain → e'.Plain)
  | .var t x, bound, env, r, h, hv, hd => by
    simp only [lexE, Option.bind_eq_bind, Option.bind_eq_some_iff, Option.pure_def, Option.some.injEq] at h
    obtain ⟨y, hy, rfl⟩ := h
    simp only [RExpr.InScope, RExpr.lets, RExpr.Plain]
    exact ⟨fun hk => hv _ _ hy hk, trivial, fun h => h⟩
  | .call t f args, bound, env, r, h, hv, hd => by
    simp only [lexE, Option.bind_eq_bind, Option.bind_eq_some_iff, Option.pure_def, Option.some.injEq] at h
    obtain ⟨g, hg, as, has, rfl⟩ := h
    simp only [bindsE] at hd
    obtain ⟨h1, h2, h3⟩ := lexL_static args has hv hd
    simp only [RExpr.InScope, RExpr.lets, RExpr.Plain]
    exact ⟨h1, h2, h3⟩
  | .ite t c a b, bound, env, r, h, hv, hd => by
    simp only [lexE, Option.bind_eq_bind, Option.bind_eq_some_iff, Option.pure_def, Option.some.injEq] at h
    obtain ⟨c', hc, a', ha, b', hb, rfl⟩ := h
    simp only [bindsE] at hd
    obtain ⟨h1, h2, h3⟩ := lexE_static c hc hv hd.left
    obtain ⟨h4, h5, h6⟩ := lexE_static a ha hv hd.right.left
    obtain ⟨h7, h8, h9⟩ := lexE_static b hb hv hd.right.right
    simp only [RExpr.InScope, RExpr.lets, RExpr.Plain]
    exact ⟨⟨h1, h4, h7⟩, by rw [h2, h5, h8], fun h => ⟨h3 h.1, h6 h.2.1, h9 h.2.2⟩⟩
  | .bin t op a b, bound, env, r, h, hv, hd => by
    simp only [lexE, Option.bind_eq_bind, Option.bind_eq_some_iff, Option.pure_def, Option.some.injEq] at h
    obtain ⟨a', ha, b', hb, rfl⟩ := h
    simp only [bindsE] at hd
    obtain ⟨h4, h5, h6⟩ := lexE_static a ha hv hd.left
    obtain ⟨h7, h8, h9⟩ := lexE_static b hb hv hd.right
    simp only [RExpr.InScope, RExpr.lets, RExpr.Plain]
    exact ⟨⟨h4, h7⟩, by rw [h5, h8], fun h => ⟨h6 h.1, h9 h.2⟩⟩
  | .un t op a, bound, env, r, h, hv, hd => by
    simp only [lexE, Option.bind_eq_bind, Option.bind_eq_some_iff, Option.pure_def, Option.some.injEq] at h
    obtain ⟨a', ha, rfl⟩ := h
    simp only [bindsE] at hd
    obtain ⟨h4, h5, h6⟩ := lexE_static a ha hv hd
    simp only [RExpr.InScope, RExpr.lets, RExpr.Plain]
    exact ⟨h4, h5, h6⟩
  | .cast t a, bound, env, r, h, hv, hd => by
    simp only [lexE, Option.bind_eq_bind, Option.bind_eq_some_iff, Option.pure_def, Option.some.injEq] at h
    obtain ⟨a', ha, rfl⟩ := h
    simp only [bindsE] at hd
    obtain ⟨h4, h5, h6⟩ := lexE_static a ha hv hd
    simp only [RExpr.InScope, RExpr.lets, RExpr.Plain]
    exact ⟨h4, h5, fun h => h⟩
  | .quant t op vs tr a, bound, env, r, h, hv, hd => by
    simp only [lexE, Option.bind_eq_bind, Option.bind_eq_some_iff, Option.pure_def, Option.some.injEq] at h
    obtain ⟨inner, hi, tr', htr, a', ha, rfl⟩ := h
    simp only [bindsE] at hd
    have hq : ∀ v ∈ vs, Γ v.var.id = some (.var (.val v.var.ty) .quant) := fun v hv' => hd.left _ (List.mem_map.2 ⟨v, hv', rfl⟩)
    have hv' : VisOk Γ bound inner := by
      refine hv.sub.bindAll hi fun x hx k hk => ?_
      obtain ⟨v, hv', rfl⟩ := List.mem_map.1 hx
      rw [hq v hv'] at hk
      exact nomatch hk
    obtain ⟨h1, h2, h3⟩ := lexLL_static tr htr hv' hd.right.left
    obtain ⟨h4, h5, h6⟩ := lexE_static a ha hv' hd.right.right
    simp only [RExpr.InScope, RExpr.lets, RExpr.Plain]
    exact ⟨⟨fun v hv' => ⟨_, hq v hv'⟩, h1, h4⟩, by rw [h2, h5], fun h => ⟨h3 h.1, h6 h.2⟩⟩
  | .subst t x v a, bound, env, r, h, hv, hd => by
    simp only [lexE, Option.bind_eq_bind, Option.bind_eq_some_iff, Option.pure_def, Option.some.injEq] at h
    obtain ⟨v', hv', inner, hi, a', ha, rfl⟩ := h
    simp only [bindsE] at hd
    obtain ⟨h1, h2, h3⟩ := lexE_static v hv' hv hd.left
    obtain ⟨h4, h5, h6⟩ := lexE_static a ha (hv.sub.bind (bound' := x :: bound) hi (fun y hy => List.mem_cons_of_mem _ hy)
      fun _ => List.mem_cons_self) hd.right.tail
    simp only [RExpr.InScope, RExpr.lets, RExpr.Plain]
    exact ⟨⟨h1, h4⟩, by rw [h2, h5], fun h => ⟨h3 h.1, h6 h.2⟩⟩
  | .lit t l, bound, env, r, h, hv, hd => by
    simp only [lexE, Option.pure_def, Option.some.injEq] at h
    subst h
    exact ⟨trivial, rfl, fun h => h⟩

theorem lexL_static {Γ : Ctx} : ∀ (es : List RExpr) {bound : List Ident} {env : Env} {es' : List RExpr}, lexL env es = some es' →
    VisOk Γ bound env → DeclsIn Γ (bindsL es) → InScopeL Γ bound es' ∧ letsL es' = letsL es ∧ (PlainL es → PlainL es')
  | [], bound, env, r, h, hv, hd => by
    simp only [lexL, Option.pure_def, Option.some.injEq] at h
    subst h
    exact ⟨trivial, rfl, fun h => h⟩
  | e :: es, bound, env, r, h, hv, hd => by
    simp only [lexL, Option.bind_eq_bind, Option.bind_eq_some_iff, Option.pure_def, Option.some.injEq] at h
    obtain ⟨e', he, es', hes, rfl⟩ := h
    simp only [bindsL] at hd
    obtain ⟨h4, h5, h6⟩ := lexE_static e he hv hd.left
    obtain ⟨h7, h8, h9⟩ := lexL_static es hes hv hd.right
    exact ⟨⟨h4, h7⟩, by simp only [letsL, h5, h8], fun h => ⟨h6 h.1, h9 h.2⟩⟩

theorem lexLL_static {Γ : Ctx} : ∀ (ess : List (List RExpr)) {bound : List Ident} {env : Env} {ess' : List (List RExpr)},
    lexLL env ess = some ess' → VisOk Γ bound env → DeclsIn Γ (bindsLL ess) →
    InScopeLL Γ bound ess' ∧ letsLL ess' = letsLL ess ∧ (PlainLL ess → PlainLL ess')
  | [], bound, env, r, h, hv, hd => by
    simp only [lexLL, Option.pure_def, Option.some.injEq] at h
    subst h
    exact ⟨trivial, rfl, fun h => h⟩
  | e :: es, bound, env, r, h, hv, hd => by
    simp only [lexLL, Option.bind_eq_bind, Option.bind_eq_some_iff, Option.pure_def, Option.some.injEq] at h
    obtain ⟨e', he, es', hes, rfl⟩ := h
    simp only [bindsLL] at hd
    obtain ⟨h4, h5, h6⟩ := lexL_static e he hv hd.left
    obtain ⟨h7, h8, h9⟩ := lexLL_static es hes hv hd.right
    exact ⟨⟨h4, h7⟩, by simp only [letsLL, h5, h8], fun h => ⟨h6 h.1, h9 h.2⟩⟩

end

mutual

/-- The variables of `let` are declared as such. -/
theorem lets_binds : ∀ e : RExpr, (e.lets.map fun x => (x, RDecl.var .none .subst)).Sublist (bindsE e)
  | .var _ _ => .slnil
  | .call _ _ args => by simpa only [RExpr.lets, bindsE] using letsL_binds args
  | .ite _ c a b => by
    simp only [RExpr.lets, bindsE, List.map_append]
    exact (lets_binds c).append ((lets_binds a).append (lets_binds b))
  | .bin _ _ a b => by
    simp only [RExpr.lets, bindsE, List.map_append]
    exact (lets_binds a).append (lets_binds b)
  | .un _ _ a => by simpa only [RExpr.lets, bindsE] using lets_binds a
  | .cast _ a => by simpa only [RExpr.lets, bindsE] using lets_binds a
  | .quant _ _ vs tr a => by
    simp only [RExpr.lets, bindsE, List.map_append]
    exact ((letsLL_binds tr).append (lets_binds a)).trans (List.sublist_append_right _ _)
  | .subst _ x v a => by
    simp only [RExpr.lets, bindsE, List.map_append, List.map_cons]
    exact (lets_binds v).append ((lets_binds a).cons_cons _)
  | .lit _ _ => .slnil

theorem letsL_binds : ∀ es : List RExpr, ((letsL es).map fun x => (x, RDecl.var .none .subst)).Sublist (bindsL es)
  | [] => .slnil
  | e :: es => by
    simp only [letsL, bindsL, List.map_append]
    exact (lets_binds e).append (letsL_binds es)

theorem letsLL_binds : ∀ es : List (List RExpr), ((letsLL es).map fun x => (x, RDecl.var .none .subst)).Sublist (bindsLL es)
  | [] => .slnil
  | e :: es => by
    simp only [letsLL, bindsLL, List.map_append]
    exact (letsL_binds e).append (letsLL_binds es)

end

/-- The variables of `let` among declarations. -/
def LetsIn (xs : List Ident) (ds : List (Ident × RDecl)) : Prop := (xs.map fun x => (x, RDecl.var .none .subst)).Sublist ds

theorem LetsIn.append {xs ys : List Ident} {ds es : List (Ident × RDecl)} (h : LetsIn xs ds) (h' : LetsIn ys es) :
    LetsIn (xs ++ ys) (ds ++ es) := by
  unfold LetsIn
  rw [List.map_append]
  exact List.Sublist.append h h'

theorem LetsIn.skip {xs : List Ident} {ds : List (Ident × RDecl)} (h : LetsIn xs ds) (d : Ident × RDecl) : LetsIn xs (d :: ds) :=
  List.Sublist.cons d h

theorem LetsIn.nil (ds : List (Ident × RDecl)) : LetsIn [] ds := List.nil_sublist _

theorem LetsIn.decl {xs : List Ident} {ds : List (Ident × RDecl)} (h : LetsIn xs ds) {Γ : Ctx} (hd : DeclsIn Γ ds) :
    ∀ x ∈ xs, Γ x = some (.var .none .subst) := fun x hx => hd _ (h.subset (List.mem_map.2 ⟨x, hx, rfl⟩))

theorem LetsIn.nodup {xs : List Ident} {ds : List (Ident × RDecl)} (h : LetsIn xs ds) (hd : (ds.map Prod.fst).Nodup) : xs.Nodup := by
  have := (List.Sublist.map Prod.fst h).nodup hd
  rwa [List.map_map, show Prod.fst ∘ (fun x : Ident => (x, RDecl.var .none .subst)) = id from rfl, List.map_id] at this

mutual

/-- `@omega_invariant` has an argument, and those of slicing annotations are literals. -/
def RStmt.AnnsOk (anns : Anns) : RStmt → Prop
  | .seq ss => AnnsOkB anns ss
  | .demonic a b => AnnsOkB anns a ∧ AnnsOkB anns b
  | .angelic a b => AnnsOkB anns a ∧ AnnsOkB anns b
  | .additive a b => AnnsOkB anns a ∧ AnnsOkB anns b
  | .ite _ a b => AnnsOkB anns a ∧ AnnsOkB anns b
  | .while _ b => AnnsOkB anns b
  | .annot f args s =>
    (∀ g, anns f.name = some (g, .omegaInvariant) → args ≠ []) ∧
      (∀ g n m, anns f.name = some (g, .slice n m) → ∀ a ∈ args, ∃ t l, a = .lit t l) ∧ s.AnnsOk anns
  | _ => True

/-- `RStmt.AnnsOk` for blocks. -/
def AnnsOkB (anns : Anns) : List RStmt → Prop
  | [] => True
  | s :: ss => s.AnnsOk anns ∧ AnnsOkB anns ss

end

theorem literals_static {Γ : Ctx} : ∀ {args : List RExpr}, (∀ a ∈ args, ∃ t l, a = .lit t l) → InScopeL Γ [] args ∧ letsL args = []
  | [], _ => ⟨trivial, rfl⟩
  | a :: as, h => by
    obtain ⟨t, l, rfl⟩ := h a List.mem_cons_self
    obtain ⟨h1, h2⟩ := literals_static (Γ := Γ) fun b hb => h b (List.mem_cons_of_mem _ hb)
    exact ⟨⟨trivial, h1⟩, by simp only [letsL, RExpr.lets, h2, List.append_nil]⟩

/-- What is to be shown for arguments of annotations. -/
structure ArgsStatic (Γ : Ctx) (k : AnnKind) (args args' : List RExpr) (env' : Env) : Prop where
  shape : AnnShape Γ k args'
  scope : InScopeL Γ [] args'
  lets : letsL args' = letsL args
  plain : PlainL args → PlainL args'
  str : ∀ t m, args = [.lit t (.str m)] → args' = args
  vis : VisOk Γ [] env'
  binds : LetsIn (letsL args) (bindsArgs k args)

theorem lexArgs_static {Γ : Ctx} {k : AnnKind} {args args' : List RExpr} {env env' : Env} (h : lexArgs env k args = some (args', env'))
    (hv : VisOk Γ [] env) (hd : DeclsIn Γ (bindsArgs k args)) (ho : k = .omegaInvariant → args ≠ [])
    (hs : ∀ n m, k = .slice n m → ∀ a ∈ args, ∃ t l, a = .lit t l) : ArgsStatic Γ k args args' env' := by
  have plain : AnnShape Γ k args' → bindsArgs k args = bindsL args →
      (lexL env args >>= fun args => pure (args, env)) = some (args', env') → ArgsStatic Γ k args args' env' := by
    intro hsh hb h
    simp only [Option.bind_eq_bind, Option.bind_eq_some_iff, Option.pure_def, Option.some.injEq, Prod.mk.injEq] at h
    obtain ⟨as, has, rfl, rfl⟩ := h
    obtain ⟨h1, h2, h3⟩ := lexL_static args has hv (hb ▸ hd)
    refine ⟨hsh, h1, h2, h3, ?_, hv, hb ▸ letsL_binds args⟩
    rintro t m rfl
    simp only [lexL, lexE, Option.pure_def, Option.bind_eq_bind, Option.bind_some, Option.some.injEq] at has
    exact has.symm
  cases k with
  | invariant => exact plain trivial rfl (by simpa only [lexArgs] using h)
  | kInduction => exact plain trivial rfl (by simpa only [lexArgs] using h)
  | unroll => exact plain trivial rfl (by simpa only [lexArgs] using h)
  | past => exact plain trivial rfl (by simpa only [lexArgs] using h)
  | ost => exact plain trivial rfl (by simpa only [lexArgs] using h)
  | slice n m =>
    simp only [lexArgs, Option.some.injEq, Prod.mk.injEq] at h
    obtain ⟨rfl, rfl⟩ := h
    obtain ⟨h1, h2⟩ := literals_static (Γ := Γ) (hs n m rfl)
    exact ⟨trivial, h1, rfl, fun h => h, fun _ _ _ => rfl, hv, h2 ▸ .nil _⟩
  | omegaInvariant =>
    match args, ho rfl with
    | .var t x :: as, _ =>
      simp only [bindsArgs] at hd
      simp only [lexArgs, Option.bind_eq_bind, Option.bind_eq_some_iff, Option.pure_def, Option.some.injEq, Prod.mk.injEq] at h
      obtain ⟨env₁, h1, as', has, rfl, rfl⟩ := h
      have hx := hd.head
      have hv1 := hv.bind h1 (bound' := []) (fun _ h => h) (by rintro ⟨k, hk⟩; rw [hx] at hk; exact nomatch hk)
      obtain ⟨h2, h3, h4⟩ := lexL_static as has hv1 hd.tail
      refine ⟨⟨t, x, as', rfl, .mut, hx, .inl rfl⟩, ⟨?_, h2⟩, ?_, ?_, ?_, hv1, ?_⟩
      · rintro ⟨k, hk⟩
        rw [hx] at hk
        exact nomatch hk
      · simp only [letsL, RExpr.lets, h3]
      · exact fun h => ⟨trivial, h4 h.2⟩
      · exact fun _ _ h => nomatch h
      · simp only [letsL, RExpr.lets, bindsArgs, List.nil_append]
        exact LetsIn.skip (letsL_binds as) _
    | .call .. :: _, _ | .ite .. :: _, _ | .bin .. :: _, _ | .un .. :: _, _ | .cast .. :: _, _ | .quant .. :: _, _ | .subst .. :: _, _
    | .lit .. :: _, _ =>
      simp only [lexArgs] at h
      exact nomatch h
  | ast =>
    match args with
    | [i, v, x, p, d] =>
      cases x with
      | var t x =>
        simp only [bindsArgs] at hd
        simp only [lexArgs, Option.bind_eq_bind, Option.bind_eq_some_iff, Option.pure_def, Option.some.injEq, Prod.mk.injEq] at h
        obtain ⟨i', hi, v', hv', env₁, h1, p', hp, d', hd', rfl, rfl⟩ := h
        have hx := hd.right.right.head
        have hv1 := hv.bind h1 (bound' := []) (fun _ h => h) (by rintro ⟨k, hk⟩; rw [hx] at hk; exact nomatch hk)
        obtain ⟨a1, a2, a3⟩ := lexE_static i hi hv hd.left
        obtain ⟨b1, b2, b3⟩ := lexE_static v hv' hv hd.right.left
        obtain ⟨c1, c2, c3⟩ := lexE_static p hp hv1 hd.right.right.tail.left
        obtain ⟨d1, d2, d3⟩ := lexE_static d hd' hv1 hd.right.right.tail.right
        refine ⟨⟨i', v', t, x, [p', d'], rfl, .mut, hx, .inl rfl⟩, ⟨a1, b1, ?_, c1, d1, trivial⟩, ?_, ?_, ?_, hv1, ?_⟩
        · rintro ⟨k, hk⟩
          rw [hx] at hk
          exact nomatch hk
        · simp only [letsL, RExpr.lets, a2, b2, c2, d2]
        · exact fun h => ⟨a3 h.1, b3 h.2.1, trivial, c3 h.2.2.2.1, d3 h.2.2.2.2.1, trivial⟩
        · exact fun _ _ h => nomatch h
        · simp only [letsL, RExpr.lets, bindsArgs, List.nil_append, List.append_nil]
          exact LetsIn.append (lets_binds i) (LetsIn.append (lets_binds v) ((LetsIn.append (lets_binds p) (lets_binds d)).skip _))
      | _ =>
        simp only [lexArgs] at h
        exact nomatch h
    | [] | [_] | [_, _] | [_, _, _] | [_, _, _, _] | _ :: _ :: _ :: _ :: _ :: _ :: _ =>
      simp only [lexArgs] at h
      exact nomatch h

/-- What is to be shown for statements. -/
structure StmtStatic (Γ : Ctx) (anns : Anns) (s s' : RStmt) (env' : Env) : Prop where
  scope : s'.InScope Γ
  lets : s'.lets = s.lets
  plain : s.Plain → s'.Plain
  vis : VisOk Γ [] env'
  binds : LetsIn s.lets (bindsS anns s)

/-- What is to be shown for blocks. -/
structure BlockStatic (Γ : Ctx) (anns : Anns) (ss ss' : List RStmt) : Prop where
  scope : InScopeB Γ ss'
  lets : letsB ss' = letsB ss
  plain : PlainB ss → PlainB ss'
  binds : LetsIn (letsB ss) (bindsB anns ss)

mutual

theorem lexS_static {Γ : Ctx} {anns : Anns} (hA : ∀ n g k, anns n = some (g, k) → Γ g = some (.annot k)) : ∀ (s : RStmt) {env env' : Env}
    {s' : RStmt}, lexS anns env s = some (s', env') → VisOk Γ [] env → DeclsIn Γ (bindsS anns s) → s.AnnsOk anns →
    StmtStatic Γ anns s s' env'
  | .seq ss, env, env', s', h, hv, hd, ho => by
    simp only [lexS, Option.bind_eq_bind, Option.bind_eq_some_iff, Option.pure_def, Option.some.injEq, Prod.mk.injEq] at h
    obtain ⟨ss', hss, rfl, rfl⟩ := h
    simp only [bindsS] at hd
    simp only [RStmt.AnnsOk] at ho
    have b := lexB_static hA ss hss hv.sub hd ho
    constructor
    · simp only [RStmt.InScope]; exact b.scope
    · simp only [RStmt.lets]; exact b.lets
    · simp only [RStmt.Plain]; exact b.plain
    · exact hv
    · simp only [RStmt.lets, bindsS]; exact b.binds
  | .var x t none, env, env', s', h, hv, hd, ho => by
    simp only [lexS, Option.bind_eq_bind, Option.bind_eq_some_iff, Option.pure_def, Option.some.injEq, Prod.mk.injEq] at h
    obtain ⟨env₁, h1, ⟨rfl, rfl⟩⟩ := h
    simp only [bindsS] at hd
    constructor
    · simp only [RStmt.InScope]; exact ⟨.mut, hd.head, .inl rfl⟩
    · rfl
    · exact fun h => h
    · exact hv.bind h1 (fun _ h => h) (by rintro ⟨k, hk⟩; rw [hd.head] at hk; exact nomatch hk)
    · simp only [RStmt.lets, bindsS]; exact .nil _
  | .var x t (some e), env, env', s', h, hv, hd, ho => by
    simp only [lexS, Option.bind_eq_bind, Option.bind_eq_some_iff, Option.pure_def, Option.some.injEq, Prod.mk.injEq] at h
    obtain ⟨e', he, env₁, h1, ⟨rfl, rfl⟩⟩ := h
    simp only [bindsS] at hd
    obtain ⟨e1, e2, e3⟩ := lexE_static e he hv hd.left
    constructor
    · simp only [RStmt.InScope]; exact ⟨⟨.mut, hd.right.head, .inl rfl⟩, e1⟩
    · simp only [RStmt.lets]; exact e2
    · simp only [RStmt.Plain]; exact e3
    · exact hv.bind h1 (fun _ h => h) (by rintro ⟨k, hk⟩; rw [hd.right.head] at hk; exact nomatch hk)
    · simp only [RStmt.lets, bindsS]; exact List.append_nil e.lets ▸ LetsIn.append (lets_binds e) (.nil _)
  | .assign lhs e, env, env', s', h, hv, hd, ho => by
    simp only [lexS, Option.bind_eq_bind, Option.bind_eq_some_iff, Option.pure_def, Option.some.injEq, Prod.mk.injEq] at h
    obtain ⟨lhs', hl, e', he, rfl, rfl⟩ := h
    simp only [bindsS] at hd
    obtain ⟨e1, e2, e3⟩ := lexE_static e he hv hd
    constructor
    · simp only [RStmt.InScope]; exact e1
    · simp only [RStmt.lets]; exact e2
    · simp only [RStmt.Plain]; exact e3
    · exact hv
    · simp only [RStmt.lets, bindsS]; exact lets_binds e
  | .havoc d xs, env, env', s', h, hv, hd, ho => by
    simp only [lexS, Option.bind_eq_bind, Option.bind_eq_some_iff, Option.pure_def, Option.some.injEq, Prod.mk.injEq] at h
    obtain ⟨xs', hx, rfl, rfl⟩ := h
    constructor
    · trivial
    · rfl
    · exact fun _ => trivial
    · exact hv
    · exact .nil _
  | .assert d e, env, env', s', h, hv, hd, ho => by
    simp only [lexS, Option.bind_eq_bind, Option.bind_eq_some_iff, Option.pure_def, Option.some.injEq, Prod.mk.injEq] at h
    obtain ⟨e', he, rfl, rfl⟩ := h
    simp only [bindsS] at hd
    obtain ⟨e1, e2, e3⟩ := lexE_static e he hv hd
    constructor
    · simp only [RStmt.InScope]; exact e1
    · simp only [RStmt.lets]; exact e2
    · simp only [RStmt.Plain]; exact e3
    · exact hv
    · simp only [RStmt.lets, bindsS]; exact lets_binds e
  | .assume d e, env, env', s', h, hv, hd, ho => by
    simp only [lexS, Option.bind_eq_bind, Option.bind_eq_some_iff, Option.pure_def, Option.some.injEq, Prod.mk.injEq] at h
    obtain ⟨e', he, rfl, rfl⟩ := h
    simp only [bindsS] at hd
    obtain ⟨e1, e2, e3⟩ := lexE_static e he hv hd
    constructor
    · simp only [RStmt.InScope]; exact e1
    · simp only [RStmt.lets]; exact e2
    · simp only [RStmt.Plain]; exact e3
    · exact hv
    · simp only [RStmt.lets, bindsS]; exact lets_binds e
  | .compare d e, env, env', s', h, hv, hd, ho => by
    simp only [lexS, Option.bind_eq_bind, Option.bind_eq_some_iff, Option.pure_def, Option.some.injEq, Prod.mk.injEq] at h
    obtain ⟨e', he, rfl, rfl⟩ := h
    simp only [bindsS] at hd
    obtain ⟨e1, e2, e3⟩ := lexE_static e he hv hd
    constructor
    · simp only [RStmt.InScope]; exact e1
    · simp only [RStmt.lets]; exact e2
    · simp only [RStmt.Plain]; exact e3
    · exact hv
    · simp only [RStmt.lets, bindsS]; exact lets_binds e
  | .negate d, env, env', s', h, hv, hd, ho => by
    simp only [lexS, Option.bind_eq_bind, Option.bind_eq_some_iff, Option.pure_def, Option.some.injEq, Prod.mk.injEq] at h
    obtain ⟨rfl, rfl⟩ := h
    constructor
    · trivial
    · rfl
    · exact fun _ => trivial
    · exact hv
    · exact .nil _
  | .validate d, env, env', s', h, hv, hd, ho => by
    simp only [lexS, Option.bind_eq_bind, Option.bind_eq_some_iff, Option.pure_def, Option.some.injEq, Prod.mk.injEq] at h
    obtain ⟨rfl, rfl⟩ := h
    constructor
    · trivial
    · rfl
    · exact fun _ => trivial
    · exact hv
    · exact .nil _
  | .tick e, env, env', s', h, hv, hd, ho => by
    simp only [lexS, Option.bind_eq_bind, Option.bind_eq_some_iff, Option.pure_def, Option.some.injEq, Prod.mk.injEq] at h
    obtain ⟨e', he, rfl, rfl⟩ := h
    simp only [bindsS] at hd
    obtain ⟨e1, e2, e3⟩ := lexE_static e he hv hd
    constructor
    · simp only [RStmt.InScope]; exact e1
    · simp only [RStmt.lets]; exact e2
    · simp only [RStmt.Plain]; exact e3
    · exact hv
    · simp only [RStmt.lets, bindsS]; exact lets_binds e
  | .weigh e, env, env', s', h, hv, hd, ho => by
    simp only [lexS, Option.bind_eq_bind, Option.bind_eq_some_iff, Option.pure_def, Option.some.injEq, Prod.mk.injEq] at h
    obtain ⟨e', he, rfl, rfl⟩ := h
    simp only [bindsS] at hd
    obtain ⟨e1, e2, e3⟩ := lexE_static e he hv hd
    constructor
    · simp only [RStmt.InScope]; exact e1
    · simp only [RStmt.lets]; exact e2
    · simp only [RStmt.Plain]; exact e3
    · exact hv
    · simp only [RStmt.lets, bindsS]; exact lets_binds e
  | .demonic a b, env, env', s', h, hv, hd, ho => by
    simp only [lexS, Option.bind_eq_bind, Option.bind_eq_some_iff, Option.pure_def, Option.some.injEq, Prod.mk.injEq] at h
    obtain ⟨a', ha, b', hb, rfl, rfl⟩ := h
    simp only [bindsS] at hd
    simp only [RStmt.AnnsOk] at ho
    have p := lexB_static hA a ha hv.sub hd.left ho.1
    have q := lexB_static hA b hb hv.sub hd.right ho.2
    constructor
    · simp only [RStmt.InScope]; exact ⟨p.scope, q.scope⟩
    · simp only [RStmt.lets, p.lets, q.lets]
    · simp only [RStmt.Plain]; exact fun h => ⟨p.plain h.1, q.plain h.2⟩
    · exact hv
    · simp only [RStmt.lets, bindsS]; exact p.binds.append q.binds
  | .angelic a b, env, env', s', h, hv, hd, ho => by
    simp only [lexS, Option.bind_eq_bind, Option.bind_eq_some_iff, Option.pure_def, Option.some.injEq, Prod.mk.injEq] at h
    obtain ⟨a', ha, b', hb, rfl, rfl⟩ := h
    simp only [bindsS] at hd
    simp only [RStmt.AnnsOk] at ho
    have p := lexB_static hA a ha hv.sub hd.left ho.1
    have q := lexB_static hA b hb hv.sub hd.right ho.2
    constructor
    · simp only [RStmt.InScope]; exact ⟨p.scope, q.scope⟩
    · simp only [RStmt.lets, p.lets, q.lets]
    · simp only [RStmt.Plain]; exact fun h => ⟨p.plain h.1, q.plain h.2⟩
    · exact hv
    · simp only [RStmt.lets, bindsS]; exact p.binds.append q.binds
  | .additive a b, env, env', s', h, hv, hd, ho => by
    simp only [lexS, Option.bind_eq_bind, Option.bind_eq_some_iff, Option.pure_def, Option.some.injEq, Prod.mk.injEq] at h
    obtain ⟨a', ha, b', hb, rfl, rfl⟩ := h
    simp only [bindsS] at hd
    simp only [RStmt.AnnsOk] at ho
    have p := lexB_static hA a ha hv.sub hd.left ho.1
    have q := lexB_static hA b hb hv.sub hd.right ho.2
    constructor
    · simp only [RStmt.InScope]; exact ⟨p.scope, q.scope⟩
    · simp only [RStmt.lets, p.lets, q.lets]
    · simp only [RStmt.Plain]; exact fun h => ⟨p.plain h.1, q.plain h.2⟩
    · exact hv
    · simp only [RStmt.lets, bindsS]; exact p.binds.append q.binds
  | .ite c a b, env, env', s', h, hv, hd, ho => by
    simp only [lexS, Option.bind_eq_bind, Option.bind_eq_some_iff, Option.pure_def, Option.some.injEq, Prod.mk.injEq] at h
    obtain ⟨c', hc, a', ha, b', hb, rfl, rfl⟩ := h
    simp only [bindsS] at hd
    simp only [RStmt.AnnsOk] at ho
    obtain ⟨e1, e2, e3⟩ := lexE_static c hc hv hd.left
    have p := lexB_static hA a ha hv.sub hd.right.left ho.1
    have q := lexB_static hA b hb hv.sub hd.right.right ho.2
    constructor
    · simp only [RStmt.InScope]; exact ⟨e1, p.scope, q.scope⟩
    · simp only [RStmt.lets, e2, p.lets, q.lets]
    · simp only [RStmt.Plain]; exact fun h => ⟨e3 h.1, p.plain h.2.1, q.plain h.2.2⟩
    · exact hv
    · simp only [RStmt.lets, bindsS]; exact LetsIn.append (lets_binds c) (p.binds.append q.binds)
  | .while c b, env, env', s', h, hv, hd, ho => by
    simp only [lexS, Option.bind_eq_bind, Option.bind_eq_some_iff, Option.pure_def, Option.some.injEq, Prod.mk.injEq] at h
    obtain ⟨c', hc, b', hb, rfl, rfl⟩ := h
    simp only [bindsS] at hd
    simp only [RStmt.AnnsOk] at ho
    obtain ⟨e1, e2, e3⟩ := lexE_static c hc hv hd.left
    have q := lexB_static hA b hb hv.sub hd.right ho
    constructor
    · simp only [RStmt.InScope]; exact ⟨e1, q.scope⟩
    · simp only [RStmt.lets, e2, q.lets]
    · simp only [RStmt.Plain]; exact fun h => ⟨e3 h.1, q.plain h.2⟩
    · exact hv
    · simp only [RStmt.lets, bindsS]; exact LetsIn.append (lets_binds c) q.binds
  | .annot f args s, env, env', s', h, hv, hd, ho => by
    simp only [lexS, Option.bind_eq_bind, Option.bind_eq_some_iff, Option.pure_def, Option.some.injEq, Prod.mk.injEq, Prod.exists] at h
    obtain ⟨g, k, hg, args', env₁, ha, s₁, env₂, hs, rfl, rfl⟩ := h
    simp only [bindsS, hg] at hd
    simp only [RStmt.AnnsOk] at ho
    have a := lexArgs_static ha hv hd.left (fun hk => ho.1 g (by rw [hg, hk])) (fun n m hk => ho.2.1 g n m (by rw [hg, hk]))
    have b := lexS_static hA s hs a.vis.sub hd.right ho.2.2
    constructor
    · simp only [RStmt.InScope]
      exact ⟨⟨k, hA _ _ _ hg, a.shape⟩, a.scope, b.scope⟩
    · simp only [RStmt.lets, a.lets, b.lets]
    · simp only [RStmt.Plain]
      rintro ⟨h1 | ⟨t, m, h1⟩, h2⟩
      · exact ⟨.inl (a.plain h1), b.plain h2⟩
      · exact ⟨.inr ⟨t, m, (a.str t m h1).trans h1⟩, b.plain h2⟩
    · exact a.vis
    · simp only [RStmt.lets, bindsS, hg]
      exact a.binds.append b.binds
  | .label l, env, env', s', h, hv, hd, ho => by
    simp only [lexS, Option.bind_eq_bind, Option.bind_eq_some_iff, Option.pure_def, Option.some.injEq, Prod.mk.injEq] at h
    obtain ⟨env₁, h1, ⟨rfl, rfl⟩⟩ := h
    simp only [bindsS] at hd
    constructor
    · trivial
    · rfl
    · exact fun _ => trivial
    · exact hv.bind h1 (fun _ h => h) (by rintro ⟨k, hk⟩; rw [hd.head] at hk; exact nomatch hk)
    · exact .nil _

theorem lexB_static {Γ : Ctx} {anns : Anns} (hA : ∀ n g k, anns n = some (g, k) → Γ g = some (.annot k)) : ∀ (ss : List RStmt) {env : Env}
    {ss' : List RStmt}, lexB anns env ss = some ss' → VisOk Γ [] env → DeclsIn Γ (bindsB anns ss) → AnnsOkB anns ss →
    BlockStatic Γ anns ss ss'
  | [], env, ss', h, hv, hd, ho => by
    simp only [lexB, Option.pure_def, Option.some.injEq] at h
    subst h
    exact ⟨trivial, rfl, fun h => h, .nil _⟩
  | s :: ss, env, ss', h, hv, hd, ho => by
    simp only [lexB, Option.bind_eq_bind, Option.bind_eq_some_iff, Option.pure_def, Option.some.injEq, Prod.exists] at h
    obtain ⟨s₁, env₁, hs, ss₁, hss, rfl⟩ := h
    simp only [bindsB] at hd
    have a := lexS_static hA s hs hv hd.left ho.1
    have b := lexB_static hA ss hss a.vis hd.right ho.2
    exact ⟨⟨a.scope, b.scope⟩, by simp only [letsB, a.lets, b.lets], fun h => ⟨a.plain h.1, b.plain h.2⟩, a.binds.append b.binds⟩

end

theorem lexSpecs_static {Γ : Ctx} : ∀ {ss ss' : List RSpec} {env : Env}, lexSpecs env ss = some ss' → VisOk Γ [] env → DeclsIn Γ (bindsSpecs ss) →
    (∀ s ∈ ss', s.expr.InScope Γ []) ∧ letsSpec ss' = letsSpec ss ∧ ((∀ s ∈ ss, s.expr.Plain) → ∀ s ∈ ss', s.expr.Plain) ∧
      LetsIn (letsSpec ss) (bindsSpecs ss)
  | [], ss', env, h, hv, hd => by
    simp only [lexSpecs, Option.pure_def, Option.some.injEq] at h
    subst h
    exact ⟨fun _ h => (nomatch h), rfl, fun _ _ h => (nomatch h), .nil _⟩
  | .requires e :: ss, ss', env, h, hv, hd => by
    simp only [lexSpecs, Option.bind_eq_bind, Option.bind_eq_some_iff, Option.pure_def, Option.some.injEq] at h
    obtain ⟨e', he, ss₁, hss, rfl⟩ := h
    simp only [bindsSpecs] at hd
    obtain ⟨a1, a2, a3⟩ := lexE_static e he hv hd.left
    obtain ⟨b1, b2, b3, b4⟩ := lexSpecs_static hss hv hd.right
    refine ⟨?_, ?_, ?_, ?_⟩
    · rintro s (_ | ⟨_, hs⟩)
      · exact a1
      · exact b1 s hs
    · simp only [letsSpec, RSpec.expr, a2, b2]
    · rintro hp s (_ | ⟨_, hs⟩)
      · exact a3 (hp _ List.mem_cons_self)
      · exact b3 (fun s hs => hp s (List.mem_cons_of_mem _ hs)) s hs
    · exact LetsIn.append (lets_binds e) b4
  | .ensures e :: ss, ss', env, h, hv, hd => by
    simp only [lexSpecs, Option.bind_eq_bind, Option.bind_eq_some_iff, Option.pure_def, Option.some.injEq] at h
    obtain ⟨e', he, ss₁, hss, rfl⟩ := h
    simp only [bindsSpecs] at hd
    obtain ⟨a1, a2, a3⟩ := lexE_static e he hv hd.left
    obtain ⟨b1, b2, b3, b4⟩ := lexSpecs_static hss hv hd.right
    refine ⟨?_, ?_, ?_, ?_⟩
    · rintro s (_ | ⟨_, hs⟩)
      · exact a1
      · exact b1 s hs
    · simp only [letsSpec, RSpec.expr, a2, b2]
    · rintro hp s (_ | ⟨_, hs⟩)
      · exact a3 (hp _ List.mem_cons_self)
      · exact b3 (fun s hs => hp s (List.mem_cons_of_mem _ hs)) s hs
    · exact LetsIn.append (lets_binds e) b4

end Front
end Caesar
