import Verif.Front.ResRep

/-!
# Name resolution is lexical scoping

`Resolve` and the specification of `Verif.Front.Lexical` agree.
-/

namespace Caesar
namespace Front
open RState

theorem var_ne_annot {t : RTy} {k : VarKind} (k' : AnnKind) : RDecl.var t k ≠ .annot k' := fun h => nomatch h

/-- What a visit leaves whose declarations are all in scopes of their own. -/
def Decls (st : RState) (ds : List (Ident × RDecl)) {α : Type} (a : α) (r : α × RState) : Prop :=
  r = (a, ⟨st.scopes, declCtx st.ctx ds⟩)

theorem quantDecls_fst (vs : List QVar) : (quantDecls vs).map Prod.fst = vs.map (·.var.id) := by
  simp [quantDecls, List.map_map, Function.comp_def]

theorem quantDecls_noAnn (vs : List QVar) : NoAnn (quantDecls vs) := by
  intro d hd k
  obtain ⟨v, -, rfl⟩ := List.mem_map.1 hd
  exact fun h => nomatch h

mutual

theorem resE_lex {anns : Anns} : ∀ (e : RExpr) {st : RState} {env : Env}, Rep anns st env → Fresh st.ctx (bindsE e) →
    Agrees (lexE env e) (resE e st) (Decls st (bindsE e))
  | .var t x, st, env, h, hf => by
    simp only [lexE, resE, bindsE]
    refine (h.ident x).bind fun y z hz => ?_
    subst hz
    exact .pure rfl
  | .call t f args, st, env, h, hf => by
    simp only [bindsE] at hf
    simp only [lexE, resE, bindsE]
    refine (h.ident f).bind fun y z hz => ?_
    subst hz
    refine (resL_lex args h hf).bind fun a r hr => ?_
    subst hr
    exact .pure rfl
  | .ite t c a b, st, env, h, hf => by
    simp only [bindsE] at hf
    simp only [lexE, resE, bindsE]
    refine (resE_lex c h hf.left).bind fun c' r hr => ?_
    subst hr
    have h1 := h.ctx hf.left (bindsE_noAnn c)
    refine (resE_lex a h1 hf.right.left).bind fun a' r hr => ?_
    subst hr
    have h2 := h1.ctx hf.right.left (bindsE_noAnn a)
    refine (resE_lex b h2 hf.right.right).bind fun b' r hr => ?_
    subst hr
    exact .pure (by simp only [Decls, declCtx_append])
  | .bin t op a b, st, env, h, hf => by
    simp only [bindsE] at hf
    simp only [lexE, resE, bindsE]
    refine (resE_lex a h hf.left).bind fun c' r hr => ?_
    subst hr
    have h1 := h.ctx hf.left (bindsE_noAnn a)
    refine (resE_lex b h1 hf.right).bind fun a' r hr => ?_
    subst hr
    exact .pure (by simp only [Decls, declCtx_append])
  | .un t op a, st, env, h, hf => by
    simp only [bindsE] at hf
    simp only [lexE, resE, bindsE]
    refine (resE_lex a h hf).bind fun c' r hr => ?_
    subst hr
    exact .pure rfl
  | .cast t a, st, env, h, hf => by
    simp only [bindsE] at hf
    simp only [lexE, resE, bindsE]
    refine (resE_lex a h hf).bind fun c' r hr => ?_
    subst hr
    exact .pure rfl
  | .quant t op vs tr a, st, env, h, hf => by
    simp only [bindsE] at hf
    simp only [lexE, resE, bindsE]
    rw [← quantDecls_fst]
    refine (h.enter.declareAll hf.left (quantDecls_noAnn vs)).bind fun env₁ st₁ h1 => ?_
    have hf1 : Fresh st₁.ctx (bindsLL tr ++ bindsE a) := h1.ctx ▸ hf.right
    refine (resLL_lex tr h1.rep hf1.left).bind fun tr' r hr => ?_
    subst hr
    have h2 := h1.rep.ctx hf1.left (bindsLL_noAnn tr)
    refine (resE_lex a h2 hf1.right).bind fun a' r hr => ?_
    subst hr
    have h3 := h2.ctx hf1.right (bindsE_noAnn a)
    refine Agrees.step (leave_enter h3.ne h1.tail h.ne) (.pure ?_)
    simp only [Decls, declCtx_append, h1.ctx]
    rfl
  | .subst t x v a, st, env, h, hf => by
    simp only [bindsE] at hf
    simp only [lexE, resE, bindsE]
    refine (resE_lex v h hf.left).bind fun v' r hr => ?_
    subst hr
    have h1 := h.ctx hf.left (bindsE_noAnn v)
    have hf1 : Fresh (declCtx st.ctx (bindsE v)) ([(x, .var .none .subst)] ++ bindsE a) := hf.right
    refine (h1.enter.declare (x := x) (hf1.new _ List.mem_cons_self) var_ne_annot).bind fun env₂ st₂ h2 => ?_
    have hf2 : Fresh st₂.ctx (bindsE a) := h2.ctx ▸ hf1.right
    refine (resE_lex a h2.rep hf2).bind fun a' r hr => ?_
    subst hr
    have h3 := h2.rep.ctx hf2 (bindsE_noAnn a)
    refine Agrees.step (leave_enter h3.ne h2.tail h1.ne) (.pure ?_)
    simp only [Decls, declCtx_append, h2.ctx]
    rfl
  | .lit t l, st, env, h, hf => by
    simp only [lexE, resE, bindsE]
    exact .pure rfl

theorem resL_lex {anns : Anns} : ∀ (es : List RExpr) {st : RState} {env : Env}, Rep anns st env → Fresh st.ctx (bindsL es) →
    Agrees (lexL env es) (resL es st) (Decls st (bindsL es))
  | [], st, env, h, hf => by
    simp only [lexL, resL, bindsL]
    exact .pure rfl
  | e :: es, st, env, h, hf => by
    simp only [bindsL] at hf
    simp only [lexL, resL, bindsL]
    refine (resE_lex e h hf.left).bind fun c' r hr => ?_
    subst hr
    have h1 := h.ctx hf.left (bindsE_noAnn e)
    refine (resL_lex es h1 hf.right).bind fun a' r hr => ?_
    subst hr
    exact .pure (by simp only [Decls, declCtx_append])

theorem resLL_lex {anns : Anns} : ∀ (ess : List (List RExpr)) {st : RState} {env : Env}, Rep anns st env → Fresh st.ctx (bindsLL ess) →
    Agrees (lexLL env ess) (resLL ess st) (Decls st (bindsLL ess))
  | [], st, env, h, hf => by
    simp only [lexLL, resLL, bindsLL]
    exact .pure rfl
  | es :: ess, st, env, h, hf => by
    simp only [bindsLL] at hf
    simp only [lexLL, resLL, bindsLL]
    refine (resL_lex es h hf.left).bind fun c' r hr => ?_
    subst hr
    have h1 := h.ctx hf.left (bindsL_noAnn es)
    refine (resLL_lex ess h1 hf.right).bind fun a' r hr => ?_
    subst hr
    exact .pure (by simp only [Decls, declCtx_append])

end

/-- What a visit leaves that may declare names in the current block. -/
def Next (anns : Anns) (st : RState) (ds : List (Ident × RDecl)) {α : Type} (a : α × Env) (r : α × RState) : Prop :=
  r.1 = a.1 ∧ After anns st ds a.2 r.2

theorem Rep.after {anns : Anns} {st : RState} {env : Env} (h : Rep anns st env) {ds : List (Ident × RDecl)} (hf : Fresh st.ctx ds)
    (hn : NoAnn ds) : After anns st ds env ⟨st.scopes, declCtx st.ctx ds⟩ := ⟨h.ctx hf hn, rfl, rfl⟩

theorem After.trans {anns : Anns} {st st₁ st₂ : RState} {ds ds' : List (Ident × RDecl)} {env₁ env₂ : Env} (h : After anns st ds env₁ st₁)
    (h' : After anns st₁ ds' env₂ st₂) : After anns st (ds ++ ds') env₂ st₂ :=
  ⟨h'.rep, h'.tail.trans h.tail, by rw [h'.ctx, h.ctx, declCtx_append]⟩

/-- Leaving a block. -/
theorem After.leave {anns : Anns} {st st₁ : RState} {ds : List (Ident × RDecl)} {env env₁ : Env} (h : Rep anns st env)
    (h1 : After anns st.enter ds env₁ st₁) : st₁.leave st.token = .ok ⟨st.scopes, declCtx st.ctx ds⟩ := by
  rw [leave_enter h1.rep.ne h1.tail h.ne, h1.ctx]
  rfl

theorem Agrees.fails {α β α' β' : Type} {spec : Option α} {r : M β} {post : α → β → Prop} (h : Agrees spec r post)
    {g : β → M β'} {post' : α' → β' → Prop} (hf : ∀ a b, post a b → Agrees none (g b) post') : Agrees none (r >>= g) post' := by
  cases spec with
  | none =>
    obtain ⟨err, rfl, he⟩ := h
    exact ⟨err, rfl, he⟩
  | some a =>
    obtain ⟨b, rfl, hb⟩ := h
    exact hf a b hb

theorem resArgs_lex {anns : Anns} {k : AnnKind} {args : List RExpr} {st : RState} {env : Env} (h : Rep anns st env)
    (hf : Fresh st.ctx (bindsArgs k args)) (ho : k = .ost → args.length = 4) (ha : k = .ast → args.length = 5) :
    Agrees (lexArgs env k args) (resArgs k args st) (Next anns st (bindsArgs k args)) := by
  have plain : ∀ (hb : bindsArgs k args = bindsL args),
      Agrees (lexL env args >>= fun args => pure (args, env)) (resL args st) (Next anns st (bindsArgs k args)) := by
    intro hb
    rw [hb] at hf
    have := resL_lex args h hf
    rw [show resL args st = resL args st >>= pure from (bind_pure _).symm]
    refine this.bind fun as r hr => ?_
    subst hr
    refine .pure ⟨rfl, ?_⟩
    rw [hb]
    exact h.after hf (bindsL_noAnn args)
  cases k with
  | invariant => simpa only [lexArgs, resArgs] using plain rfl
  | kInduction => simpa only [lexArgs, resArgs] using plain rfl
  | unroll => simpa only [lexArgs, resArgs] using plain rfl
  | past => simpa only [lexArgs, resArgs] using plain rfl
  | ost =>
    have hl := ho rfl
    match args, hl with
    | [a, b, c, d], _ => simpa only [lexArgs, resArgs] using plain rfl
  | slice n m =>
    simp only [lexArgs, resArgs]
    exact .pure ⟨rfl, h, rfl, rfl⟩
  | omegaInvariant =>
    match args with
    | [] =>
      simp only [lexArgs, resArgs]
      exact .pure ⟨rfl, h, rfl, by simp only [bindsArgs, bindsL]; rfl⟩
    | .var t x :: as =>
      simp only [bindsArgs] at hf
      simp only [lexArgs, resArgs, bindsArgs]
      have hf1 : Fresh st.ctx ([(x, .var (.val .uint) .mut)] ++ bindsL as) := hf
      refine (h.declare (hf.new _ List.mem_cons_self) var_ne_annot).bind fun env₁ st₁ h1 => ?_
      have hf2 : Fresh st₁.ctx (bindsL as) := h1.ctx ▸ hf1.right
      refine (resL_lex as h1.rep hf2).bind fun as' r hr => ?_
      subst hr
      exact .pure ⟨rfl, h1.trans (h1.rep.after hf2 (bindsL_noAnn as))⟩
    | .call .. :: _ | .ite .. :: _ | .bin .. :: _ | .un .. :: _ | .cast .. :: _ | .quant .. :: _ | .subst .. :: _ | .lit .. :: _ =>
      simp only [lexArgs, resArgs]
      exact ⟨_, rfl, fun h => nomatch h⟩
  | ast =>
    have hl := ha rfl
    match args, hl with
    | [i, v, x, p, d], _ =>
      cases x with
      | var t x =>
        simp only [bindsArgs] at hf
        simp only [lexArgs, resArgs, bindsArgs]
        refine (resE_lex i h hf.left).bind fun i' r hr => ?_
        subst hr
        have h1 := h.after hf.left (bindsE_noAnn i)
        have hf1 := hf.right
        refine (resE_lex v h1.rep hf1.left).bind fun v' r hr => ?_
        subst hr
        have h2 := h1.trans (h1.rep.after hf1.left (bindsE_noAnn v))
        have hf2 := hf1.right
        have hf2' : Fresh (declCtx (declCtx st.ctx (bindsE i)) (bindsE v)) ([(x, .var (.val .ureal) .mut)] ++ (bindsE p ++ bindsE d)) := hf2
        refine (h2.rep.declare (hf2.new _ List.mem_cons_self) var_ne_annot).bind fun env₃ st₃ h3 => ?_
        have hf3 : Fresh st₃.ctx (bindsE p ++ bindsE d) := h3.ctx ▸ hf2'.right
        refine (resE_lex p h3.rep hf3.left).bind fun p' r hr => ?_
        subst hr
        have h4 := h3.rep.after hf3.left (bindsE_noAnn p)
        refine (resE_lex d h4.rep hf3.right).bind fun d' r hr => ?_
        subst hr
        have h5 := h4.rep.after hf3.right (bindsE_noAnn d)
        have := ((h2.trans h3).trans h4).trans h5
        simp only [List.append_assoc, List.cons_append, List.nil_append] at this
        exact .pure ⟨rfl, this⟩
      | _ =>
        simp only [bindsArgs, bindsL] at hf
        simp only [lexArgs, resArgs]
        refine (resE_lex i h hf.left).fails fun i' r hr => ?_
        subst hr
        have h1 := h.after hf.left (bindsE_noAnn i)
        refine (resE_lex v h1.rep hf.right.left).fails fun v' r hr => ?_
        subst hr
        exact ⟨_, rfl, fun h => nomatch h⟩

/-- What the visit of a block leaves. -/
def NextB (anns : Anns) (st : RState) (ds : List (Ident × RDecl)) {α : Type} (a : α) (r : α × RState) : Prop :=
  r.1 = a ∧ ∃ env, After anns st ds env r.2

mutual

theorem resS_lex (anns : Anns) : ∀ (s : RStmt) {st : RState} {env : Env}, Rep anns st env → Fresh st.ctx (bindsS anns s) →
    s.ArgsOk anns → Agrees (lexS anns env s) (resS s st) (Next anns st (bindsS anns s))
  | .seq ss, st, env, h, hf, ho => by
    simp only [bindsS] at hf
    simp only [RStmt.ArgsOk] at ho
    simp only [lexS, resS, bindsS]
    refine (resB_lex anns ss h.enter hf ho).bind fun a' r ⟨hr, env₁, h1⟩ => ?_
    exact Agrees.step (h1.leave h) (.pure ⟨by rw [hr], h.after hf (bindsB_noAnn anns ss)⟩)
  | .var x t none, st, env, h, hf, ho => by
    simp only [bindsS] at hf
    simp only [lexS, resS, bindsS]
    refine (h.declare (hf.new _ List.mem_cons_self) var_ne_annot).bind fun env₁ st₁ h1 => ?_
    exact .pure ⟨rfl, h1⟩
  | .var x t (some e), st, env, h, hf, ho => by
    simp only [bindsS] at hf
    simp only [lexS, resS, bindsS]
    refine (resE_lex e h hf.left).bind fun e' r hr => ?_
    subst hr
    have h1 := h.after hf.left (bindsE_noAnn e)
    refine (h1.rep.declare (hf.right.new _ List.mem_cons_self) var_ne_annot).bind fun env₂ st₂ h2 => ?_
    exact .pure ⟨rfl, h1.trans h2⟩
  | .assign lhs e, st, env, h, hf, ho => by
    simp only [bindsS] at hf
    simp only [lexS, resS, bindsS]
    refine (h.idents lhs).bind fun ys zs hz => ?_
    subst hz
    refine (resE_lex e h hf).bind fun e' r hr => ?_
    subst hr
    exact .pure ⟨rfl, h.after hf (bindsE_noAnn e)⟩
  | .havoc d xs, st, env, h, hf, ho => by
    simp only [lexS, resS, bindsS]
    refine (h.idents xs).bind fun ys zs hz => ?_
    subst hz
    exact .pure ⟨rfl, h, rfl, rfl⟩
  | .assert d e, st, env, h, hf, ho => by
    simp only [bindsS] at hf
    simp only [lexS, resS, bindsS]
    refine (resE_lex e h hf).bind fun e' r hr => ?_
    subst hr
    exact .pure ⟨rfl, h.after hf (bindsE_noAnn e)⟩
  | .assume d e, st, env, h, hf, ho => by
    simp only [bindsS] at hf
    simp only [lexS, resS, bindsS]
    refine (resE_lex e h hf).bind fun e' r hr => ?_
    subst hr
    exact .pure ⟨rfl, h.after hf (bindsE_noAnn e)⟩
  | .compare d e, st, env, h, hf, ho => by
    simp only [bindsS] at hf
    simp only [lexS, resS, bindsS]
    refine (resE_lex e h hf).bind fun e' r hr => ?_
    subst hr
    exact .pure ⟨rfl, h.after hf (bindsE_noAnn e)⟩
  | .negate d, st, env, h, hf, ho => by
    simp only [lexS, resS, bindsS]
    exact .pure ⟨rfl, h, rfl, rfl⟩
  | .validate d, st, env, h, hf, ho => by
    simp only [lexS, resS, bindsS]
    exact .pure ⟨rfl, h, rfl, rfl⟩
  | .tick e, st, env, h, hf, ho => by
    simp only [bindsS] at hf
    simp only [lexS, resS, bindsS]
    refine (resE_lex e h hf).bind fun e' r hr => ?_
    subst hr
    exact .pure ⟨rfl, h.after hf (bindsE_noAnn e)⟩
  | .weigh e, st, env, h, hf, ho => by
    simp only [bindsS] at hf
    simp only [lexS, resS, bindsS]
    refine (resE_lex e h hf).bind fun e' r hr => ?_
    subst hr
    exact .pure ⟨rfl, h.after hf (bindsE_noAnn e)⟩
  | .demonic a b, st, env, h, hf, ho => by
    simp only [bindsS] at hf
    simp only [RStmt.ArgsOk] at ho
    simp only [lexS, resS, bindsS]
    refine (resB_lex anns a h.enter hf.left ho.1).bind fun a' r ⟨hr, env₁, h1⟩ => ?_
    refine Agrees.step (h1.leave h) ?_
    have h2 := h.after hf.left (bindsB_noAnn anns a)
    refine (resB_lex anns b h2.rep.enter hf.right ho.2).bind fun b' r' ⟨hr', env₃, h3⟩ => ?_
    refine Agrees.step (h3.leave h2.rep) (.pure ⟨by rw [hr, hr'], ?_⟩)
    exact h2.trans (h2.rep.after hf.right (bindsB_noAnn anns b))
  | .angelic a b, st, env, h, hf, ho => by
    simp only [bindsS] at hf
    simp only [RStmt.ArgsOk] at ho
    simp only [lexS, resS, bindsS]
    refine (resB_lex anns a h.enter hf.left ho.1).bind fun a' r ⟨hr, env₁, h1⟩ => ?_
    refine Agrees.step (h1.leave h) ?_
    have h2 := h.after hf.left (bindsB_noAnn anns a)
    refine (resB_lex anns b h2.rep.enter hf.right ho.2).bind fun b' r' ⟨hr', env₃, h3⟩ => ?_
    refine Agrees.step (h3.leave h2.rep) (.pure ⟨by rw [hr, hr'], ?_⟩)
    exact h2.trans (h2.rep.after hf.right (bindsB_noAnn anns b))
  | .additive a b, st, env, h, hf, ho => by
    simp only [bindsS] at hf
    simp only [RStmt.ArgsOk] at ho
    simp only [lexS, resS, bindsS]
    refine (resB_lex anns a h.enter hf.left ho.1).bind fun a' r ⟨hr, env₁, h1⟩ => ?_
    refine Agrees.step (h1.leave h) ?_
    have h2 := h.after hf.left (bindsB_noAnn anns a)
    refine (resB_lex anns b h2.rep.enter hf.right ho.2).bind fun b' r' ⟨hr', env₃, h3⟩ => ?_
    refine Agrees.step (h3.leave h2.rep) (.pure ⟨by rw [hr, hr'], ?_⟩)
    exact h2.trans (h2.rep.after hf.right (bindsB_noAnn anns b))
  | .ite c a b, st, env, h, hf, ho => by
    simp only [bindsS] at hf
    simp only [RStmt.ArgsOk] at ho
    simp only [lexS, resS, bindsS]
    refine (resE_lex c h hf.left).bind fun c' r hr => ?_
    subst hr
    have h0 := h.after hf.left (bindsE_noAnn c)
    have hf := hf.right
    refine (resB_lex anns a h0.rep.enter hf.left ho.1).bind fun a' r ⟨hr, env₁, h1⟩ => ?_
    refine Agrees.step (h1.leave h0.rep) ?_
    have h2 := h0.rep.after hf.left (bindsB_noAnn anns a)
    refine (resB_lex anns b h2.rep.enter hf.right ho.2).bind fun b' r' ⟨hr', env₃, h3⟩ => ?_
    refine Agrees.step (h3.leave h2.rep) (.pure ⟨by rw [hr, hr'], ?_⟩)
    exact h0.trans (h2.trans (h2.rep.after hf.right (bindsB_noAnn anns b)))
  | .while c b, st, env, h, hf, ho => by
    simp only [bindsS] at hf
    simp only [RStmt.ArgsOk] at ho
    simp only [lexS, resS, bindsS]
    refine (resE_lex c h hf.left).bind fun c' r hr => ?_
    subst hr
    have h0 := h.after hf.left (bindsE_noAnn c)
    refine (resB_lex anns b h0.rep.enter hf.right ho).bind fun a' r ⟨hr, env₁, h1⟩ => ?_
    exact Agrees.step (h1.leave h0.rep) (.pure ⟨by rw [hr], h0.trans (h0.rep.after hf.right (bindsB_noAnn anns b))⟩)
  | .annot f args s, st, env, h, hf, ho => by
    simp only [bindsS] at hf
    simp only [RStmt.ArgsOk] at ho
    simp only [lexS, resS, bindsS]
    have hA := h.annot f
    cases hk : anns f.name with
    | none =>
      rw [hk] at hA
      obtain ⟨err, he, hp⟩ := hA
      exact ⟨err, by rw [he]; rfl, hp⟩
    | some gk =>
      obtain ⟨g, k⟩ := gk
      simp only [hk] at hf hA ⊢
      obtain ⟨b, hb, rfl⟩ := hA
      refine Agrees.step hb ?_
      show Agrees (lexArgs env k args >>= _) _ _
      refine (resArgs_lex h hf.left (fun hk' => ho.1 g (by rw [hk, hk'])) (fun hk' => ho.2.1 g (by rw [hk, hk']))).bind fun a r hr => ?_
      obtain ⟨args', env₁⟩ := a
      obtain ⟨args'', st₁⟩ := r
      obtain ⟨hs, h1⟩ := hr
      simp only at hs h1
      subst hs
      have hf1 : Fresh st₁.ctx (bindsS anns s) := h1.ctx ▸ hf.right
      refine (resS_lex anns s h1.rep.enter hf1 ho.2.2).bind fun a r hr => ?_
      obtain ⟨s', env₂⟩ := a
      obtain ⟨s'', st₂⟩ := r
      obtain ⟨hs, h2⟩ := hr
      simp only at hs h2
      subst hs
      exact Agrees.step (h2.leave h1.rep) (.pure ⟨rfl, h1.trans (h1.rep.after hf1 (bindsS_noAnn anns s))⟩)
  | .label l, st, env, h, hf, ho => by
    simp only [bindsS] at hf
    simp only [lexS, resS, bindsS]
    refine (h.declare (hf.new _ List.mem_cons_self) (fun _ h => RDecl.noConfusion h)).bind fun env₁ st₁ h1 => ?_
    exact .pure ⟨rfl, h1⟩

theorem resB_lex (anns : Anns) : ∀ (ss : List RStmt) {st : RState} {env : Env}, Rep anns st env → Fresh st.ctx (bindsB anns ss) →
    ArgsOkB anns ss → Agrees (lexB anns env ss) (resB ss st) (NextB anns st (bindsB anns ss))
  | [], st, env, h, hf, ho => by
    simp only [lexB, resB, bindsB]
    exact .pure ⟨rfl, env, h, rfl, rfl⟩
  | s :: ss, st, env, h, hf, ho => by
    simp only [bindsB] at hf
    simp only [ArgsOkB] at ho
    simp only [lexB, resB, bindsB]
    refine (resS_lex anns s h hf.left ho.1).bind fun a r hr => ?_
    obtain ⟨s', env₁⟩ := a
    obtain ⟨s'', st₁⟩ := r
    obtain ⟨hs, h1⟩ := hr
    simp only at hs h1
    subst hs
    refine (resB_lex anns ss h1.rep (h1.ctx ▸ hf.right) ho.2).bind fun ss' r ⟨hr, env₂, h2⟩ => ?_
    exact .pure ⟨by rw [hr], env₂, h1.trans h2⟩

end

end Front
end Caesar
