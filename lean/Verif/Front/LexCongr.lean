import Verif.Front.ResUnit

/-!
# Names that a tree does not mention

The specification depends only on the names that occur. So it does not matter whether a name that is not mentioned is in scope.
-/

namespace Caesar
namespace Front

mutual

/-- No name in the expression is in `T`. The names of declarations do not count. -/
def RExpr.Avoids (T : String → Prop) : RExpr → Prop
  | .var _ x => ¬ T x.name
  | .call _ f args => ¬ T f.name ∧ AvoidsL T args
  | .ite _ c a b => c.Avoids T ∧ a.Avoids T ∧ b.Avoids T
  | .bin _ _ a b => a.Avoids T ∧ b.Avoids T
  | .un _ _ a => a.Avoids T
  | .cast _ a => a.Avoids T
  | .quant _ _ _ tr a => AvoidsLL T tr ∧ a.Avoids T
  | .subst _ _ v a => v.Avoids T ∧ a.Avoids T
  | .lit _ _ => True

/-- `RExpr.Avoids` for lists. -/
def AvoidsL (T : String → Prop) : List RExpr → Prop
  | [] => True
  | e :: es => e.Avoids T ∧ AvoidsL T es

/-- `RExpr.Avoids` for triggers. -/
def AvoidsLL (T : String → Prop) : List (List RExpr) → Prop
  | [] => True
  | es :: ess => AvoidsL T es ∧ AvoidsLL T ess

end

mutual

/-- `RExpr.Avoids` for statements. -/
def RStmt.Avoids (T : String → Prop) : RStmt → Prop
  | .seq ss => AvoidsB T ss
  | .var _ _ none => True
  | .var _ _ (some e) => e.Avoids T
  | .assign lhs e => (∀ x ∈ lhs, ¬ T x.name) ∧ e.Avoids T
  | .havoc _ xs => ∀ x ∈ xs, ¬ T x.name
  | .assert _ e => e.Avoids T
  | .assume _ e => e.Avoids T
  | .compare _ e => e.Avoids T
  | .negate _ => True
  | .validate _ => True
  | .tick e => e.Avoids T
  | .weigh e => e.Avoids T
  | .demonic a b => AvoidsB T a ∧ AvoidsB T b
  | .angelic a b => AvoidsB T a ∧ AvoidsB T b
  | .additive a b => AvoidsB T a ∧ AvoidsB T b
  | .ite c a b => c.Avoids T ∧ AvoidsB T a ∧ AvoidsB T b
  | .while c b => c.Avoids T ∧ AvoidsB T b
  | .annot _ args s => AvoidsL T args ∧ s.Avoids T
  | .label _ => True

/-- `RStmt.Avoids` for blocks. -/
def AvoidsB (T : String → Prop) : List RStmt → Prop
  | [] => True
  | s :: ss => s.Avoids T ∧ AvoidsB T ss

end

/-- `RExpr.Avoids` for items of domains. -/
def DomItem.Avoids (T : String → Prop) : DomItem → Prop
  | .func _ _ _ none => True
  | .func _ _ _ (some e) => e.Avoids T
  | .ax _ e => e.Avoids T

/-- `RExpr.Avoids` for parts of a file. -/
def RUnit.Avoids (T : String → Prop) : RUnit → Prop
  | .proc p => (∀ s ∈ p.proc.spec, s.expr.Avoids T) ∧ AvoidsB T p.proc.block
  | .domain _ items => ∀ i ∈ items, i.Avoids T
  | .raw b => AvoidsB T b

/-- Functions and axioms of domains are not used before the domain. -/
def NoneLate : List RUnit → Prop
  | [] => True
  | u :: us => u.Avoids (fun n => ∃ x ∈ us.flatMap RUnit.items, x.name = n) ∧ NoneLate us

/-! ## Proofs -/

/-- The environments differ on names in `T` only. -/
structure EnvEq (T : String → Prop) (env env' : Env) : Prop where
  here : env.here = env'.here
  vis : ∀ n, ¬ T n → env.vis n = env'.vis n

theorem EnvEq.sub {T : String → Prop} {env env' : Env} (h : ∀ n, ¬ T n → env.vis n = env'.vis n) : EnvEq T env.sub env'.sub := ⟨rfl, h⟩

/-- Both fail, or both succeed with related results. -/
def Both {α β : Type} (a : Option α) (b : Option β) (post : α → β → Prop) : Prop :=
  match a, b with
  | some a, some b => post a b
  | none, none => True
  | _, _ => False

theorem Both.bind {α β α' β' : Type} {a : Option α} {b : Option β} {post : α → β → Prop} (h : Both a b post) {f : α → Option α'}
    {g : β → Option β'} {post' : α' → β' → Prop} (hf : ∀ x y, post x y → Both (f x) (g y) post') : Both (a >>= f) (b >>= g) post' := by
  cases a <;> cases b
  · trivial
  · exact h.elim
  · exact h.elim
  · exact hf _ _ h

theorem Both.eq {α : Type} {a b : Option α} (h : Both a b Eq) : a = b := by
  cases a <;> cases b
  · rfl
  · exact h.elim
  · exact h.elim
  · exact congrArg some h

theorem Both.of_eq {α : Type} {a b : Option α} (h : a = b) : Both a b Eq := by
  subst h
  cases a
  · trivial
  · exact rfl

theorem Both.refl {α : Type} (a : Option α) : Both a a Eq := .of_eq rfl

theorem EnvEq.bind {T : String → Prop} {env env' : Env} (h : EnvEq T env env') (x : Ident) : Both (env.bind x) (env'.bind x) (EnvEq T) := by
  unfold Env.bind
  rw [h.here]
  split
  · trivial
  · refine ⟨rfl, fun n hn => ?_⟩
    by_cases hx : n = x.name
    · subst hx; simp
    · simp only [Function.update_of_ne hx, h.vis n hn]

theorem EnvEq.bindAll {T : String → Prop} : ∀ {xs : List Ident} {env env' : Env}, EnvEq T env env' →
    Both (env.bindAll xs) (env'.bindAll xs) (EnvEq T)
  | [], _, _, h => h
  | x :: xs, env, env', h => by
    simp only [Env.bindAll]
    exact (h.bind x).bind fun a b hab => hab.bindAll

theorem EnvEq.uses {T : String → Prop} {env env' : Env} (h : EnvEq T env env') : ∀ {xs : List Ident}, (∀ x ∈ xs, ¬ T x.name) →
    Both (env.uses xs) (env'.uses xs) Eq
  | [], _ => rfl
  | x :: xs, hx => by
    simp only [Env.uses]
    refine (Both.of_eq (h.vis x.name (hx x List.mem_cons_self))).bind fun a b hab => ?_
    subst hab
    refine (h.uses fun y hy => hx y (List.mem_cons_of_mem _ hy)).bind fun a b hab => ?_
    subst hab
    exact .refl _

mutual

theorem lexE_congr {T : String → Prop} : ∀ (e : RExpr) {env env' : Env}, (∀ n, ¬ T n → env.vis n = env'.vis n) → e.Avoids T →
    Both (lexE env e) (lexE env' e) Eq
  | .var t x, env, env', h, ha => by
    simp only [RExpr.Avoids] at ha
    simp only [lexE]
    refine (Both.of_eq (h x.name ha)).bind fun a b hab => ?_
    subst hab
    exact .refl _
  | .call t f args, env, env', h, ha => by
    simp only [RExpr.Avoids] at ha
    simp only [lexE]
    refine (Both.of_eq (h f.name ha.1)).bind fun a b hab => ?_
    subst hab
    refine (lexL_congr args h ha.2).bind fun a b hab => ?_
    subst hab
    exact .refl _
  | .ite t c e₁ e₂, env, env', h, ha => by
    simp only [RExpr.Avoids] at ha
    simp only [lexE]
    refine (lexE_congr c h ha.1).bind fun a b hab => ?_
    subst hab
    refine (lexE_congr e₁ h ha.2.1).bind fun a b hab => ?_
    subst hab
    refine (lexE_congr e₂ h ha.2.2).bind fun a b hab => ?_
    subst hab
    exact .refl _
  | .bin t op e₁ e₂, env, env', h, ha => by
    simp only [RExpr.Avoids] at ha
    simp only [lexE]
    refine (lexE_congr e₁ h ha.1).bind fun a b hab => ?_
    subst hab
    refine (lexE_congr e₂ h ha.2).bind fun a b hab => ?_
    subst hab
    exact .refl _
  | .un t op a, env, env', h, ha => by
    simp only [RExpr.Avoids] at ha
    simp only [lexE]
    refine (lexE_congr a h ha).bind fun a b hab => ?_
    subst hab
    exact .refl _
  | .cast t a, env, env', h, ha => by
    simp only [RExpr.Avoids] at ha
    simp only [lexE]
    refine (lexE_congr a h ha).bind fun a b hab => ?_
    subst hab
    exact .refl _
  | .quant t op vs tr e, env, env', h, ha => by
    simp only [RExpr.Avoids] at ha
    simp only [lexE]
    refine ((EnvEq.sub h).bindAll (xs := vs.map (·.var.id))).bind fun env₁ env₁' h1 => ?_
    refine (lexLL_congr tr h1.vis ha.1).bind fun a b hab => ?_
    subst hab
    refine (lexE_congr e h1.vis ha.2).bind fun a b hab => ?_
    subst hab
    exact .refl _
  | .subst t x v e, env, env', h, ha => by
    simp only [RExpr.Avoids] at ha
    simp only [lexE]
    refine (lexE_congr v h ha.1).bind fun a b hab => ?_
    subst hab
    refine ((EnvEq.sub h).bind x).bind fun env₁ env₁' h1 => ?_
    refine (lexE_congr e h1.vis ha.2).bind fun a b hab => ?_
    subst hab
    exact .refl _
  | .lit t l, env, env', h, ha => by
    simp only [lexE]
    exact .refl _

theorem lexL_congr {T : String → Prop} : ∀ (es : List RExpr) {env env' : Env}, (∀ n, ¬ T n → env.vis n = env'.vis n) → AvoidsL T es →
    Both (lexL env es) (lexL env' es) Eq
  | [], env, env', h, ha => by
    simp only [lexL]
    exact .refl _
  | e :: es, env, env', h, ha => by
    simp only [AvoidsL] at ha
    simp only [lexL]
    refine (lexE_congr e h ha.1).bind fun a b hab => ?_
    subst hab
    refine (lexL_congr es h ha.2).bind fun a b hab => ?_
    subst hab
    exact .refl _

theorem lexLL_congr {T : String → Prop} : ∀ (ess : List (List RExpr)) {env env' : Env}, (∀ n, ¬ T n → env.vis n = env'.vis n) → AvoidsLL T ess →
    Both (lexLL env ess) (lexLL env' ess) Eq
  | [], env, env', h, ha => by
    simp only [lexLL]
    exact .refl _
  | es :: ess, env, env', h, ha => by
    simp only [AvoidsLL] at ha
    simp only [lexLL]
    refine (lexL_congr es h ha.1).bind fun a b hab => ?_
    subst hab
    refine (lexLL_congr ess h ha.2).bind fun a b hab => ?_
    subst hab
    exact .refl _

end

theorem lexArgs_congr {T : String → Prop} {env env' : Env} (h : EnvEq T env env') (k : AnnKind) {args : List RExpr} (ha : AvoidsL T args) :
    Both (lexArgs env k args) (lexArgs env' k args) fun a b => a.1 = b.1 ∧ EnvEq T a.2 b.2 := by
  have plain : Both (lexL env args >>= fun args => pure (args, env)) (lexL env' args >>= fun args => pure (args, env'))
      fun a b => a.1 = b.1 ∧ EnvEq T a.2 b.2 :=
    (lexL_congr args h.vis ha).bind fun a b hab => ⟨hab, h⟩
  cases k with
  | invariant => simpa only [lexArgs] using plain
  | kInduction => simpa only [lexArgs] using plain
  | unroll => simpa only [lexArgs] using plain
  | past => simpa only [lexArgs] using plain
  | ost => simpa only [lexArgs] using plain
  | slice n m => simp only [lexArgs]; exact ⟨rfl, h⟩
  | omegaInvariant =>
    match args, ha with
    | [], _ => simp only [lexArgs]; exact ⟨rfl, h⟩
    | .var t x :: as, ha =>
      simp only [AvoidsL] at ha
      simp only [lexArgs]
      refine (h.bind x).bind fun env₁ env₁' h1 => ?_
      exact (lexL_congr as h1.vis ha.2).bind fun a b hab => ⟨by rw [hab], h1⟩
    | .call .. :: _, _ | .ite .. :: _, _ | .bin .. :: _, _ | .un .. :: _, _ | .cast .. :: _, _ | .quant .. :: _, _ | .subst .. :: _, _
    | .lit .. :: _, _ =>
      simp only [lexArgs]
      trivial
  | ast =>
    match args, ha with
    | [i, v, x, p, d], ha =>
      cases x with
      | var t x =>
        simp only [AvoidsL, and_true] at ha
        simp only [lexArgs]
        refine (lexE_congr i h.vis ha.1).bind fun a b hab => ?_
        subst hab
        refine (lexE_congr v h.vis ha.2.1).bind fun a b hab => ?_
        subst hab
        refine (h.bind x).bind fun env₁ env₁' h1 => ?_
        refine (lexE_congr p h1.vis ha.2.2.2.1).bind fun a b hab => ?_
        subst hab
        refine (lexE_congr d h1.vis ha.2.2.2.2).bind fun a b hab => ?_
        subst hab
        exact ⟨rfl, h1⟩
      | _ =>
        simp only [lexArgs]
        trivial
    | [], _ | [_], _ | [_, _], _ | [_, _, _], _ | [_, _, _, _], _ | _ :: _ :: _ :: _ :: _ :: _ :: _, _ =>
      simp only [lexArgs]
      trivial

mutual

theorem lexS_congr {T : String → Prop} (anns : Anns) : ∀ (s : RStmt) {env env' : Env}, EnvEq T env env' → s.Avoids T →
    Both (lexS anns env s) (lexS anns env' s) fun a b => a.1 = b.1 ∧ EnvEq T a.2 b.2
  | .seq ss, env, env', h, ha => by
    simp only [RStmt.Avoids] at ha
    simp only [lexS]
    refine (lexB_congr anns ss (EnvEq.sub h.vis) ha).bind fun a b hab => ?_
    subst hab
    exact ⟨rfl, h⟩
  | .var x t none, env, env', h, ha => by
    simp only [lexS]
    refine (h.bind x).bind fun env₁ env₁' h1 => ?_
    exact ⟨rfl, h1⟩
  | .var x t (some e), env, env', h, ha => by
    simp only [RStmt.Avoids] at ha
    simp only [lexS]
    refine (lexE_congr e h.vis ha).bind fun a b hab => ?_
    subst hab
    refine (h.bind x).bind fun env₁ env₁' h1 => ?_
    exact ⟨rfl, h1⟩
  | .assign lhs e, env, env', h, ha => by
    simp only [RStmt.Avoids] at ha
    simp only [lexS]
    refine (h.uses ha.1).bind fun a b hab => ?_
    subst hab
    refine (lexE_congr e h.vis ha.2).bind fun a b hab => ?_
    subst hab
    exact ⟨rfl, h⟩
  | .havoc d xs, env, env', h, ha => by
    simp only [RStmt.Avoids] at ha
    simp only [lexS]
    refine (h.uses ha).bind fun a b hab => ?_
    subst hab
    exact ⟨rfl, h⟩
  | .assert d e, env, env', h, ha => by
    simp only [RStmt.Avoids] at ha
    simp only [lexS]
    refine (lexE_congr e h.vis ha).bind fun a b hab => ?_
    subst hab
    exact ⟨rfl, h⟩
  | .assume d e, env, env', h, ha => by
    simp only [RStmt.Avoids] at ha
    simp only [lexS]
    refine (lexE_congr e h.vis ha).bind fun a b hab => ?_
    subst hab
    exact ⟨rfl, h⟩
  | .compare d e, env, env', h, ha => by
    simp only [RStmt.Avoids] at ha
    simp only [lexS]
    refine (lexE_congr e h.vis ha).bind fun a b hab => ?_
    subst hab
    exact ⟨rfl, h⟩
  | .negate d, env, env', h, ha => by
    simp only [lexS]
    exact ⟨rfl, h⟩
  | .validate d, env, env', h, ha => by
    simp only [lexS]
    exact ⟨rfl, h⟩
  | .tick e, env, env', h, ha => by
    simp only [RStmt.Avoids] at ha
    simp only [lexS]
    refine (lexE_congr e h.vis ha).bind fun a b hab => ?_
    subst hab
    exact ⟨rfl, h⟩
  | .weigh e, env, env', h, ha => by
    simp only [RStmt.Avoids] at ha
    simp only [lexS]
    refine (lexE_congr e h.vis ha).bind fun a b hab => ?_
    subst hab
    exact ⟨rfl, h⟩
  | .demonic a b, env, env', h, ha => by
    simp only [RStmt.Avoids] at ha
    simp only [lexS]
    refine (lexB_congr anns a (EnvEq.sub h.vis) ha.1).bind fun a b hab => ?_
    subst hab
    refine (lexB_congr anns b (EnvEq.sub h.vis) ha.2).bind fun a b hab => ?_
    subst hab
    exact ⟨rfl, h⟩
  | .angelic a b, env, env', h, ha => by
    simp only [RStmt.Avoids] at ha
    simp only [lexS]
    refine (lexB_congr anns a (EnvEq.sub h.vis) ha.1).bind fun a b hab => ?_
    subst hab
    refine (lexB_congr anns b (EnvEq.sub h.vis) ha.2).bind fun a b hab => ?_
    subst hab
    exact ⟨rfl, h⟩
  | .additive a b, env, env', h, ha => by
    simp only [RStmt.Avoids] at ha
    simp only [lexS]
    refine (lexB_congr anns a (EnvEq.sub h.vis) ha.1).bind fun a b hab => ?_
    subst hab
    refine (lexB_congr anns b (EnvEq.sub h.vis) ha.2).bind fun a b hab => ?_
    subst hab
    exact ⟨rfl, h⟩
  | .ite c b₁ b₂, env, env', h, ha => by
    simp only [RStmt.Avoids] at ha
    simp only [lexS]
    refine (lexE_congr c h.vis ha.1).bind fun a b hab => ?_
    subst hab
    refine (lexB_congr anns b₁ (EnvEq.sub h.vis) ha.2.1).bind fun a b hab => ?_
    subst hab
    refine (lexB_congr anns b₂ (EnvEq.sub h.vis) ha.2.2).bind fun a b hab => ?_
    subst hab
    exact ⟨rfl, h⟩
  | .while c b, env, env', h, ha => by
    simp only [RStmt.Avoids] at ha
    simp only [lexS]
    refine (lexE_congr c h.vis ha.1).bind fun a b hab => ?_
    subst hab
    refine (lexB_congr anns b (EnvEq.sub h.vis) ha.2).bind fun a b hab => ?_
    subst hab
    exact ⟨rfl, h⟩
  | .annot f args s, env, env', h, ha => by
    simp only [RStmt.Avoids] at ha
    simp only [lexS]
    refine (Both.refl (anns f.name)).bind fun a b hab => ?_
    subst hab
    refine (lexArgs_congr h a.2 ha.1).bind fun x y hxy => ?_
    obtain ⟨x1, x2⟩ := x
    obtain ⟨y1, y2⟩ := y
    obtain ⟨h1, h2⟩ := hxy
    simp only at h1 h2
    subst h1
    refine (lexS_congr anns s (EnvEq.sub h2.vis) ha.2).bind fun x y hxy => ?_
    exact ⟨by rw [hxy.1], h2⟩
  | .label l, env, env', h, ha => by
    simp only [lexS]
    refine (h.bind l).bind fun env₁ env₁' h1 => ?_
    exact ⟨rfl, h1⟩

theorem lexB_congr {T : String → Prop} (anns : Anns) : ∀ (ss : List RStmt) {env env' : Env}, EnvEq T env env' → AvoidsB T ss →
    Both (lexB anns env ss) (lexB anns env' ss) Eq
  | [], env, env', h, ha => by
    simp only [lexB]
    exact .refl _
  | s :: ss, env, env', h, ha => by
    simp only [AvoidsB] at ha
    simp only [lexB]
    refine (lexS_congr anns s h ha.1).bind fun x y hxy => ?_
    obtain ⟨x1, x2⟩ := x
    obtain ⟨y1, y2⟩ := y
    obtain ⟨h1, h2⟩ := hxy
    simp only at h1 h2
    subst h1
    refine (lexB_congr anns ss h2 ha.2).bind fun a b hab => ?_
    subst hab
    exact .refl _

end

theorem lexSpecs_congr {T : String → Prop} {env env' : Env} (h : EnvEq T env env') : ∀ {ss : List RSpec}, (∀ s ∈ ss, s.expr.Avoids T) →
    Both (lexSpecs env ss) (lexSpecs env' ss) Eq
  | [], _ => .refl _
  | .requires e :: ss, ha => by
    simp only [lexSpecs]
    refine (lexE_congr e h.vis (ha _ List.mem_cons_self)).bind fun a b hab => ?_
    subst hab
    refine (lexSpecs_congr h fun s hs => ha s (List.mem_cons_of_mem _ hs)).bind fun a b hab => ?_
    subst hab
    exact .refl _
  | .ensures e :: ss, ha => by
    simp only [lexSpecs]
    refine (lexE_congr e h.vis (ha _ List.mem_cons_self)).bind fun a b hab => ?_
    subst hab
    refine (lexSpecs_congr h fun s hs => ha s (List.mem_cons_of_mem _ hs)).bind fun a b hab => ?_
    subst hab
    exact .refl _

theorem lexItems_congr {T : String → Prop} {env env' : Env} (h : ∀ n, ¬ T n → env.vis n = env'.vis n) : ∀ {is : List DomItem}, (∀ i ∈ is, i.Avoids T) →
    Both (lexItems env is) (lexItems env' is) Eq
  | [], _ => .refl _
  | i :: is, ha => by
    simp only [lexItems]
    have hi : Both (lexItem env i) (lexItem env' i) Eq := by
      have ha := ha i List.mem_cons_self
      cases i with
      | func f ins out body =>
        simp only [lexItem]
        refine ((EnvEq.sub h).bindAll (xs := ins.map (·.id))).bind fun env₁ env₁' h1 => ?_
        cases body with
        | none => exact .refl _
        | some e =>
          simp only [lexFuncBody, bind_assoc]
          refine (lexE_congr e h1.vis ha).bind fun a b hab => ?_
          subst hab
          exact .refl _
      | ax f e =>
        simp only [lexItem]
        refine (lexE_congr e h ha).bind fun a b hab => ?_
        subst hab
        exact .refl _
    refine hi.bind fun a b hab => ?_
    subst hab
    refine (lexItems_congr h fun s hs => ha s (List.mem_cons_of_mem _ hs)).bind fun a b hab => ?_
    subst hab
    exact .refl _

theorem lexUnit_congr {T : String → Prop} {builtin : String → Option Ident} {anns : Anns} {env env' : Env}
    (h : ∀ n, ¬ T n → env.vis n = env'.vis n) {u : RUnit} (ha : u.Avoids T) : lexUnit builtin anns env u = lexUnit builtin anns env' u := by
  refine Both.eq ?_
  cases u with
  | proc p =>
    simp only [lexUnit, lexProc, bind_assoc]
    refine ((EnvEq.sub h).bindAll (xs := p.proc.paramNames)).bind fun env₁ env₁' h1 => ?_
    refine (lexSpecs_congr h1 ha.1).bind fun a b hab => ?_
    subst hab
    refine (Both.refl (lexCalculus builtin p.calculus)).bind fun a b hab => ?_
    subst hab
    have hb : Both (lexBody anns env₁ p.proc.body) (lexBody anns env₁' p.proc.body) Eq := by
      have ha := ha.2
      simp only [RProc.block] at ha
      cases hb : p.proc.body with
      | none => exact .refl _
      | some b =>
        rw [hb] at ha
        simp only [lexBody]
        refine (lexB_congr anns b h1 ha).bind fun a b hab => ?_
        subst hab
        exact .refl _
    refine hb.bind fun a b hab => ?_
    subst hab
    exact .refl _
  | domain d items =>
    simp only [lexUnit]
    rw [(lexItems_congr h ha).eq]
    exact .refl _
  | raw b =>
    simp only [lexUnit]
    refine (lexB_congr anns b (EnvEq.sub h) ha).bind fun a b hab => ?_
    subst hab
    exact .refl _

/-- The names of functions and axioms can be bound as the domains come. -/
theorem lexSeq_eq {builtin : String → Option Ident} {anns : Anns} : ∀ {us : List RUnit} {env : Env}, NoneLate us →
    lexSeq builtin anns env us = (env.bindAll (us.flatMap RUnit.items) >>= fun env => lexUnits builtin anns env us)
  | [], env, _ => rfl
  | u :: us, env, hn => by
    simp only [lexSeq, List.flatMap_cons, Env.bindAll_append, bind_assoc]
    cases env.bindAll u.items with
    | none => rfl
    | some env₁ =>
      show (lexUnit builtin anns env₁ u >>= _) = (env₁.bindAll (us.flatMap RUnit.items) >>= _)
      rw [lexSeq_eq hn.2]
      cases hb : env₁.bindAll (us.flatMap RUnit.items) with
      | none => cases lexUnit builtin anns env₁ u <;> rfl
      | some env₂ =>
        rw [lexUnit_congr (env' := env₂) (fun n hn' => (Env.bindAll_vis hb fun x hx he => hn' ⟨x, hx, he⟩).symm) hn.1]
        rfl

/-- `resModule` agrees with `lexModule`. -/
theorem resModule_lex {builtin : String → Option Ident} {anns : Anns} {us : List RUnit} {st : RState}
    (h : Rep anns st ⟨builtin, fun _ => false⟩) (hf : Fresh st.ctx (bindsModule anns us)) (ho : ∀ u ∈ us, u.ArgsOk anns)
    (hc : ∀ u ∈ us, u.CalculusOk (globalNames us)) (hn : NoneLate us) :
    Agrees (lexModule builtin anns us) (resModule us st) (NextB anns st (bindsModule anns us)) := by
  have := resModule_seq anns us h hf ho hc
  simp only [lexSeq_eq hn] at this
  simpa only [lexModule, Env.bindAll_append, bind_assoc] using this

end Front
end Caesar
