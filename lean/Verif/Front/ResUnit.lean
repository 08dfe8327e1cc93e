import Verif.Front.ResLex

/-!
# Name resolution for files

`Resolve` agrees with a specification that goes through the file once: the functions of a domain are in scope from the domain on.
-/

namespace Caesar

namespace IndexMap
variable {K V : Type} [DecidableEq K]

theorem insert_get {m : IndexMap K V} {k : K} {v : V} (h : IndexMap.get m k = some v) : IndexMap.insert m k v = m := by
  induction m with
  | nil => cases h
  | cons p m ih =>
    obtain ⟨a, b⟩ := p
    simp only [get] at h
    simp only [insert]
    split at h
    · rename_i hk; cases h; rw [if_pos hk]
    · rename_i hk; rw [if_neg hk, ih h]

end IndexMap

theorem ScopeMap.insert_localGet {K V : Type} [DecidableEq K] {m : ScopeMap K V} {k : K} {v : V} (h : m.localGet k = some v) :
    m.insert k v = some m := by
  unfold localGet at h
  unfold insert
  split at h
  · cases h
  · rename_i s ss hs
    split at h
    · rename_i w hw
      cases h
      rw [hs]
      simp only [IndexMap.insert_get hw]
      rw [← hs]
    · cases h

namespace Front
open RState

/-- `x` is declared in the innermost block. -/
def Env.Has (env : Env) (x : Ident) : Prop := env.here x.name = true ∧ env.vis x.name = some x

theorem Env.bind_some {env env' : Env} {x : Ident} (h : env.bind x = some env') :
    env.here x.name = false ∧ env' = ⟨Function.update env.vis x.name (some x), Function.update env.here x.name true⟩ := by
  unfold Env.bind at h
  split at h
  · cases h
  · rename_i hh
    simp only [Bool.not_eq_true] at hh
    exact ⟨hh, (Option.some.inj h).symm⟩

theorem Env.Has.bind {env env' : Env} {x y : Ident} (h : env.Has x) (hb : env.bind y = some env') : env'.Has x := by
  obtain ⟨hh, rfl⟩ := Env.bind_some hb
  have hne : x.name ≠ y.name := by
    intro he
    rw [← he, h.1] at hh
    cases hh
  exact ⟨by simp only [Function.update_of_ne hne, h.1], by simp only [Function.update_of_ne hne, h.2]⟩

theorem Env.Has.bindAll {x : Ident} : ∀ {ys : List Ident} {env env' : Env}, env.Has x → env.bindAll ys = some env' → env'.Has x
  | [], env, env', h, hb => by
    cases hb
    exact h
  | y :: ys, env, env', h, hb => by
    simp only [Env.bindAll, Option.bind_eq_bind, Option.bind_eq_some_iff] at hb
    obtain ⟨env₁, h1, h2⟩ := hb
    exact (h.bind h1).bindAll h2

theorem Env.bindAll_has : ∀ {xs : List Ident} {env env' : Env}, env.bindAll xs = some env' → ∀ x ∈ xs, env'.Has x
  | [], _, _, _, _, hx => nomatch hx
  | y :: ys, env, env', hb, x, hx => by
    simp only [Env.bindAll, Option.bind_eq_bind, Option.bind_eq_some_iff] at hb
    obtain ⟨env₁, h1, h2⟩ := hb
    rcases List.mem_cons.1 hx with rfl | hx
    · obtain ⟨-, rfl⟩ := Env.bind_some h1
      exact Env.Has.bindAll ⟨by simp, by simp⟩ h2
    · exact Env.bindAll_has h2 x hx

theorem Env.bindAll_vis {n : String} : ∀ {xs : List Ident} {env env' : Env}, env.bindAll xs = some env' → (∀ x ∈ xs, x.name ≠ n) →
    env'.vis n = env.vis n
  | [], env, env', h, _ => by cases h; rfl
  | x :: xs, env, env', h, hx => by
    simp only [Env.bindAll, Option.bind_eq_bind, Option.bind_eq_some_iff] at h
    obtain ⟨env₁, h1, h2⟩ := h
    rw [Env.bindAll_vis h2 fun y hy => hx y (List.mem_cons_of_mem _ hy)]
    obtain ⟨-, rfl⟩ := Env.bind_some h1
    exact Function.update_of_ne (hx x List.mem_cons_self).symm _ _

theorem Env.bindAll_append {env : Env} : ∀ {xs ys : List Ident}, env.bindAll (xs ++ ys) = env.bindAll xs >>= fun env => env.bindAll ys := by
  intro xs
  induction xs generalizing env with
  | nil => intro ys; rfl
  | cons x xs ih =>
    intro ys
    simp only [List.cons_append, Env.bindAll, Option.bind_eq_bind]
    cases env.bind x with
    | none => rfl
    | some env' => exact ih

theorem Rep.local {anns : Anns} {st : RState} {env : Env} (h : Rep anns st env) {x : Ident} (hx : env.Has x) :
    st.scopes.localGet x.name = some x := by
  have h1 := h.here x.name
  rw [hx.1] at h1
  obtain ⟨y, hy⟩ := Option.isSome_iff_exists.1 h1
  have h2 := ScopeMap.localGet_get hy
  rw [h.vis, hx.2] at h2
  cases h2
  exact hy

theorem Rep.redeclare {anns : Anns} {st : RState} {env : Env} (h : Rep anns st env) {x : Ident} (hx : env.Has x) (d : RDecl) :
    st.declare x d = .ok st := by
  have hl := h.local hx
  unfold RState.declare
  rw [ScopeMap.insert_localGet hl, hl]
  simp

theorem Rep.assertDeclared {anns : Anns} {st : RState} {env : Env} (h : Rep anns st env) {x : Ident} (hx : env.Has x) :
    assertDeclared x st = .ok () := by
  unfold Front.assertDeclared
  rw [if_pos (by rw [h.vis, hx.2])]

theorem resSpecs_lex {anns : Anns} : ∀ (ss : List RSpec) {st : RState} {env : Env}, Rep anns st env → Fresh st.ctx (bindsSpecs ss) →
    Agrees (lexSpecs env ss) (resSpecs ss st) (Decls st (bindsSpecs ss))
  | [], st, env, h, hf => .pure rfl
  | .requires e :: ss, st, env, h, hf => by
    simp only [bindsSpecs, RSpec.expr] at hf
    simp only [lexSpecs, resSpecs, bindsSpecs, RSpec.expr]
    refine (resE_lex e h hf.left).bind fun c' r hr => ?_
    subst hr
    have h1 := h.ctx hf.left (bindsE_noAnn e)
    refine (resSpecs_lex ss h1 hf.right).bind fun a' r hr => ?_
    subst hr
    exact .pure (by simp only [Decls, declCtx_append])
  | .ensures e :: ss, st, env, h, hf => by
    simp only [bindsSpecs, RSpec.expr] at hf
    simp only [lexSpecs, resSpecs, bindsSpecs, RSpec.expr]
    refine (resE_lex e h hf.left).bind fun c' r hr => ?_
    subst hr
    have h1 := h.ctx hf.left (bindsE_noAnn e)
    refine (resSpecs_lex ss h1 hf.right).bind fun a' r hr => ?_
    subst hr
    exact .pure (by simp only [Decls, declCtx_append])

theorem resCalculus_lex {anns : Anns} {builtin : String → Option Ident} {c : Option Ident} {st : RState} {env : Env} (h : Rep anns st env)
    (hc : ∀ x, c = some x → env.vis x.name = builtin x.name) : Agrees (lexCalculus builtin c) (resCalculus c st) fun a b => b = a := by
  cases c with
  | none => exact ⟨none, rfl, rfl⟩
  | some x =>
    simp only [lexCalculus, resCalculus]
    rw [← hc x rfl]
    refine (h.ident x).bind fun y z hz => ?_
    subst hz
    exact .pure rfl

theorem resBody_lex (anns : Anns) {b : Option (List RStmt)} {st : RState} {env : Env} (h : Rep anns st env)
    (hf : Fresh st.ctx (bindsB anns (b.getD []))) (ho : ArgsOkB anns (b.getD [])) :
    Agrees (lexBody anns env b) (resBody b st) (NextB anns st (bindsB anns (b.getD []))) := by
  cases b with
  | none => exact ⟨(none, st), rfl, rfl, env, h, rfl, by simp only [Option.getD_none, bindsB]; rfl⟩
  | some b =>
    simp only [lexBody, resBody]
    refine (resB_lex anns b h hf ho).bind fun a r hr => ?_
    exact .pure ⟨by rw [hr.1], hr.2⟩

theorem paramDecls_fst (p : RProc) : (paramDecls p).map Prod.fst = p.paramNames := by
  simp [paramDecls, RProc.paramNames, List.map_map, Function.comp_def]

theorem resProc_lex {builtin : String → Option Ident} (anns : Anns) {p : SProc} {st : RState} {env : Env} (h : Rep anns st env)
    (hf : Fresh st.ctx (bindsProc anns p)) (ho : ArgsOkB anns p.proc.block) (hp : env.Has p.proc.name)
    (hc : ∀ c, p.calculus = some c → env.vis c.name = builtin c.name ∧ ∀ x ∈ p.proc.paramNames, x.name ≠ c.name) :
    Agrees (lexProc builtin anns env p) (resProc p st) (Decls st (bindsProc anns p)) := by
  unfold lexProc resProc
  refine Agrees.step (h.assertDeclared hp) ?_
  have hfa : Fresh st.ctx (paramDecls p.proc ++ (bindsSpecs p.proc.spec ++ bindsB anns p.proc.block)) := hf
  cases hb : env.sub.bindAll p.proc.paramNames with
  | none =>
    have := h.enter.declareAll hfa.left (paramDecls_noAnn p.proc)
    rw [paramDecls_fst, hb] at this
    obtain ⟨err, he, hp⟩ := this
    exact ⟨err, by rw [he]; rfl, hp⟩
  | some env₁ =>
  have h1 := h.enter.declareAll hfa.left (paramDecls_noAnn p.proc)
  rw [paramDecls_fst, hb] at h1
  obtain ⟨st₁, hst₁, h1⟩ := h1
  refine Agrees.step hst₁ ?_
  have hf1 : Fresh st₁.ctx (bindsSpecs p.proc.spec ++ bindsB anns p.proc.block) := h1.ctx ▸ hfa.right
  show Agrees (lexSpecs env₁ p.proc.spec >>= _) _ _
  refine (resSpecs_lex _ h1.rep hf1.left).bind fun spec r hr => ?_
  subst hr
  have h2 := h1.trans (h1.rep.after hf1.left (bindsSpecs_noAnn _))
  refine (resCalculus_lex h2.rep fun c hcc => ?_).bind fun c c' hcc => ?_
  · rw [Env.bindAll_vis hb (hc c hcc).2]
    exact (hc c hcc).1
  subst hcc
  refine (resBody_lex anns h2.rep hf1.right ho).bind fun b r hr => ?_
  obtain ⟨b', st₃⟩ := r
  obtain ⟨hb', env₃, h3⟩ := hr
  simp only at hb' h3
  subst hb'
  have h4 := h2.trans h3
  refine Agrees.step (h4.leave h) ?_
  have hds : paramDecls p.proc ++ bindsSpecs p.proc.spec ++ bindsB anns (p.proc.body.getD []) = bindsProc anns p := by
    simp only [bindsProc, List.append_assoc]
    rfl
  have h5 := h.after hf (bindsProc_noAnn anns p)
  rw [hds]
  refine Agrees.step (h5.rep.redeclare hp _) (.pure rfl)

theorem funcParams_fst (ins : List Var) : (funcParams ins).map Prod.fst = ins.map (·.id) := by
  simp [funcParams, List.map_map, Function.comp_def]

theorem resItem_lex {anns : Anns} : ∀ (i : DomItem) {st : RState} {env : Env}, Rep anns st env → Fresh st.ctx (bindsItem i) →
    env.Has i.name → Agrees (lexItem env i) (resItem i st) (Decls st (bindsItem i))
  | .func f ins out body, st, env, h, hf, hi => by
    have hfp : Fresh st.ctx (funcParams ins) := by
      cases body with
      | none => exact hf
      | some e => exact hf.left
    simp only [lexItem, resItem]
    refine Agrees.step (h.assertDeclared hi) ?_
    rw [← funcParams_fst]
    refine (h.enter.declareAll hfp (funcParams_noAnn ins)).bind fun env₁ st₁ h1 => ?_
    cases body with
    | none =>
      refine Agrees.step (rfl : resFuncBody none st₁ = .ok (none, st₁)) ?_
      refine Agrees.step (h1.leave h) ?_
      exact Agrees.step ((h.after hf (bindsItem_noAnn (.func f ins out none))).rep.redeclare hi _) (.pure rfl)
    | some e =>
      simp only [lexFuncBody, resFuncBody, bind_assoc]
      have hf' : Fresh st.ctx (funcParams ins ++ bindsE e) := hf
      have hf1 : Fresh st₁.ctx (bindsE e) := h1.ctx ▸ hf'.right
      refine (resE_lex e h1.rep hf1).bind fun e' r hr => ?_
      subst hr
      have h2 := h1.trans (h1.rep.after hf1 (bindsE_noAnn e))
      refine Agrees.step (rfl : (pure (some e', _) : M (Option RExpr × RState)) = .ok _) ?_
      refine Agrees.step (h2.leave h) ?_
      exact Agrees.step ((h.after hf (bindsItem_noAnn (.func f ins out (some e)))).rep.redeclare hi _) (.pure rfl)
  | .ax f e, st, env, h, hf, hi => by
    simp only [lexItem, resItem]
    have h0 := h.ident f
    have hv : env.vis f.name = some f := hi.2
    rw [hv] at h0
    obtain ⟨g, hg, rfl⟩ := h0
    refine Agrees.step hg ?_
    refine (resE_lex e h hf).bind fun e' r hr => ?_
    subst hr
    exact .pure rfl

theorem bindsItems_noAnn (is : List DomItem) : NoAnn (is.flatMap bindsItem) := by
  intro d hd
  obtain ⟨i, -, hi⟩ := List.mem_flatMap.1 hd
  exact bindsItem_noAnn i d hi

theorem resItems_lex {anns : Anns} : ∀ (is : List DomItem) {st : RState} {env : Env}, Rep anns st env → Fresh st.ctx (is.flatMap bindsItem) →
    (∀ i ∈ is, env.Has i.name) → Agrees (lexItems env is) (resItems is st) (Decls st (is.flatMap bindsItem))
  | [], st, env, h, hf, hi => .pure rfl
  | i :: is, st, env, h, hf, hi => by
    simp only [List.flatMap_cons] at hf
    simp only [lexItems, resItems, List.flatMap_cons]
    refine (resItem_lex i h hf.left (hi i List.mem_cons_self)).bind fun c' r hr => ?_
    subst hr
    have h1 := h.ctx hf.left (bindsItem_noAnn i)
    refine (resItems_lex is h1 hf.right fun j hj => hi j (List.mem_cons_of_mem _ hj)).bind fun a' r hr => ?_
    subst hr
    exact .pure (by simp only [Decls, declCtx_append])

/-- The specification in one pass. -/
def lexSeq (builtin : String → Option Ident) (anns : Anns) (env : Env) : List RUnit → Option (List RUnit)
  | [] => some []
  | u :: us => do
    let env ← env.bindAll u.items
    let u ← lexUnit builtin anns env u
    let us ← lexSeq builtin anns env us
    return u :: us

/-- The calculi of procedures are not hidden by the names in `ns` or by parameters. -/
def RUnit.CalculusOk (ns : List Ident) : RUnit → Prop
  | .proc p => ∀ c, p.calculus = some c → (∀ x ∈ ns, x.name ≠ c.name) ∧ ∀ x ∈ p.proc.paramNames, x.name ≠ c.name
  | _ => True

theorem itemDecls_fst (items : List DomItem) : (items.map DomItem.decl).map Prod.fst = items.map DomItem.name := by
  rw [List.map_map]
  congr 1
  funext i
  cases i <;> rfl

theorem resUnit_lex {builtin : String → Option Ident} (anns : Anns) (u : RUnit) {st : RState} {env : Env} (h : Rep anns st env)
    (hf : Fresh st.ctx (bindsUnit anns u)) (ho : u.ArgsOk anns) (hn : ∀ x ∈ u.names, env.Has x) {ns : List Ident} (hc : u.CalculusOk ns)
    (hns : ∀ n, (∀ x ∈ ns, x.name ≠ n) → env.vis n = builtin n) :
    Agrees (do
      let env ← env.bindAll u.items
      let u ← lexUnit builtin anns env u
      return (u, env)) (resUnit u st) (Next anns st (bindsUnit anns u)) := by
  cases u with
  | proc p =>
    simp only [RUnit.items, Env.bindAll, lexUnit, resUnit, bind_assoc, pure_bind]
    show Agrees (lexProc builtin anns env p >>= _) _ _
    refine (resProc_lex anns h hf ho (hn _ List.mem_cons_self) fun c hcc => ⟨hns _ (hc c hcc).1, (hc c hcc).2⟩).bind fun p' r hr => ?_
    subst hr
    exact .pure ⟨rfl, h.after hf (bindsProc_noAnn anns p)⟩
  | domain d items =>
    simp only [RUnit.items, lexUnit, resUnit, bind_assoc, pure_bind]
    have hd := hn d List.mem_cons_self
    refine Agrees.step (h.assertDeclared hd) ?_
    have hf' : Fresh st.ctx (items.map DomItem.decl ++ items.flatMap bindsItem) := hf
    rw [← itemDecls_fst]
    have h1 := h.declareAll hf'.left (itemDecls_noAnn items)
    cases hb : env.bindAll ((items.map DomItem.decl).map Prod.fst) with
    | none =>
      rw [hb] at h1
      obtain ⟨err, he, hp⟩ := h1
      exact ⟨err, by rw [he]; rfl, hp⟩
    | some env₁ =>
      rw [hb] at h1
      obtain ⟨st₁, hst₁, h1⟩ := h1
      refine Agrees.step hst₁ ?_
      have h2 := h1.rep.ident d
      rw [(hd.bindAll hb).2] at h2
      obtain ⟨d', hd', rfl⟩ := h2
      refine Agrees.step hd' ?_
      have hf1 : Fresh st₁.ctx (items.flatMap bindsItem) := h1.ctx ▸ hf'.right
      show Agrees (lexItems env₁ items >>= _) _ _
      refine (resItems_lex items h1.rep hf1 fun i hi => ?_).bind fun is r hr => ?_
      · refine Env.bindAll_has hb _ ?_
        rw [itemDecls_fst]
        exact List.mem_map_of_mem hi
      subst hr
      exact .pure ⟨rfl, h1.trans (h1.rep.after hf1 (bindsItems_noAnn items))⟩
  | raw b =>
    simp only [RUnit.items, Env.bindAll, lexUnit, resUnit, bind_assoc, pure_bind]
    show Agrees (lexB anns env.sub b >>= _) _ _
    refine (resB_lex anns b h.enter hf ho).bind fun a' r ⟨hr, env₁, h1⟩ => ?_
    exact Agrees.step (h1.leave h) (.pure ⟨by rw [hr], h.after hf (bindsB_noAnn anns b)⟩)

theorem resUnits_lex {builtin : String → Option Ident} (anns : Anns) {ns : List Ident} : ∀ (us : List RUnit) {st : RState} {env : Env},
    Rep anns st env → Fresh st.ctx (us.flatMap (bindsUnit anns)) → (∀ u ∈ us, u.ArgsOk anns) → (∀ u ∈ us, ∀ x ∈ u.names, env.Has x) →
    (∀ u ∈ us, u.CalculusOk ns) → (∀ u ∈ us, ∀ x ∈ u.items, x ∈ ns) → (∀ n, (∀ x ∈ ns, x.name ≠ n) → env.vis n = builtin n) →
    Agrees (lexSeq builtin anns env us) (resUnits us st) (NextB anns st (us.flatMap (bindsUnit anns)))
  | [], st, env, h, _, _, _, _, _, _ => by
    simp only [lexSeq, resUnits, List.flatMap_nil]
    exact ⟨([], st), rfl, rfl, env, h, rfl, rfl⟩
  | u :: us, st, env, h, hf, ho, hn, hc, hi, hns => by
    simp only [List.flatMap_cons] at hf
    simp only [lexSeq, resUnits, List.flatMap_cons]
    have h1 := resUnit_lex anns u h hf.left (ho u List.mem_cons_self) (hn u List.mem_cons_self) (hc u List.mem_cons_self) hns
    cases hb : env.bindAll u.items with
    | none =>
      rw [hb] at h1
      obtain ⟨err, he, hp⟩ := h1
      exact ⟨err, by rw [he]; rfl, hp⟩
    | some env₁ =>
      rw [hb] at h1
      show Agrees (lexUnit builtin anns env₁ u >>= _) _ _
      cases hu : lexUnit builtin anns env₁ u with
      | none =>
        simp only [Option.bind_eq_bind, Option.bind_some, hu, Option.bind_none] at h1
        obtain ⟨err, he, hp⟩ := h1
        exact ⟨err, by rw [he]; rfl, hp⟩
      | some u' =>
        simp only [Option.bind_eq_bind, Option.bind_some, hu] at h1
        obtain ⟨⟨u'', st₁⟩, hr, hu', h1⟩ := h1
        simp only at hu' h1
        subst hu'
        refine Agrees.step hr ?_
        show Agrees (lexSeq builtin anns env₁ us >>= _) _ _
        refine (resUnits_lex anns us h1.rep (h1.ctx ▸ hf.right) (fun v hv => ho v (List.mem_cons_of_mem _ hv))
          (fun v hv x hx => (hn v (List.mem_cons_of_mem _ hv) x hx).bindAll hb) (fun v hv => hc v (List.mem_cons_of_mem _ hv))
          (fun v hv => hi v (List.mem_cons_of_mem _ hv)) fun n hn' => ?_).bind fun a r ⟨hr', env₂, h2⟩ => ?_
        · rw [Env.bindAll_vis hb fun x hx => hn' x (hi u List.mem_cons_self x hx)]
          exact hns n hn'
        · exact .pure ⟨by rw [hr'], env₂, h1.trans h2⟩

theorem unitDecls_fst (us : List RUnit) : (us.flatMap RUnit.decl).map Prod.fst = us.flatMap RUnit.names := by
  induction us with
  | nil => rfl
  | cons u us ih =>
    simp only [List.flatMap_cons, List.map_append, ih]
    cases u <;> rfl

/-- The names of a file that all its parts can see. -/
def globalNames (us : List RUnit) : List Ident := us.flatMap RUnit.names ++ us.flatMap RUnit.items

theorem resModule_seq {builtin : String → Option Ident} (anns : Anns) (us : List RUnit) {st : RState}
    (h : Rep anns st ⟨builtin, fun _ => false⟩) (hf : Fresh st.ctx (bindsModule anns us)) (ho : ∀ u ∈ us, u.ArgsOk anns)
    (hc : ∀ u ∈ us, u.CalculusOk (globalNames us)) :
    Agrees (do
      let env ← (Env.mk builtin fun _ => false).bindAll (us.flatMap RUnit.names)
      lexSeq builtin anns env us) (resModule us st) (NextB anns st (bindsModule anns us)) := by
  unfold resModule
  rw [← unitDecls_fst]
  cases hb : (Env.mk builtin fun _ => false).bindAll ((us.flatMap RUnit.decl).map Prod.fst) with
  | none =>
    have := h.declareAll hf.left (unitDecls_noAnn us)
    rw [hb] at this
    obtain ⟨err, he, hp⟩ := this
    exact ⟨err, by rw [he]; rfl, hp⟩
  | some env =>
    have h1 := h.declareAll hf.left (unitDecls_noAnn us)
    rw [hb] at h1
    obtain ⟨st₁, hst₁, h1⟩ := h1
    refine Agrees.step hst₁ ?_
    show Agrees (lexSeq builtin anns env us) _ _
    rw [unitDecls_fst] at hb
    refine (resUnits_lex anns us h1.rep (h1.ctx ▸ hf.right) ho (fun u hu x hx => ?_) hc (fun u hu x hx => ?_) fun n hn => ?_).mono
      fun a b ⟨hr, env', h2⟩ => ⟨hr, env', h1.trans h2⟩
    · exact Env.bindAll_has hb x (List.mem_flatMap.2 ⟨u, hu, hx⟩)
    · exact List.mem_append_right _ (List.mem_flatMap.2 ⟨u, hu, hx⟩)
    · exact Env.bindAll_vis hb fun x hx => hn x (List.mem_append_left _ hx)

end Front
end Caesar
