import Verif.Front.Raw

/-!
# What the parser and name resolution guarantee

Conditions on syntax trees that hold when type checking starts: trees have no casts because the grammar has none
(`src/front/parser/grammar.lalrpop`), and names have been resolved (`src/front/resolve.rs`).
-/

namespace Caesar
namespace Front

mutual

/-- The variables bound by `let`, in the order in which they are visited. -/
def RExpr.lets : RExpr → List Ident
  | .var _ _ => []
  | .call _ _ args => letsL args
  | .ite _ c a b => c.lets ++ (a.lets ++ b.lets)
  | .bin _ _ a b => a.lets ++ b.lets
  | .un _ _ a => a.lets
  | .cast _ a => a.lets
  | .quant _ _ _ tr a => letsLL tr ++ a.lets
  | .subst _ x v a => v.lets ++ (x :: a.lets)
  | .lit _ _ => []

/-- `RExpr.lets` for lists. -/
def letsL : List RExpr → List Ident
  | [] => []
  | e :: es => e.lets ++ letsL es

/-- `RExpr.lets` for triggers. -/
def letsLL : List (List RExpr) → List Ident
  | [] => []
  | es :: ess => letsL es ++ letsLL ess

end

mutual

/-- Names are in scope: a variable without a type, that is one declared by a `let`, is used in the body of this `let` only (`bound` has the variables of
the enclosing ones), and quantified variables are declared with their type (`src/front/resolve.rs:273-294`). -/
def RExpr.InScope (Γ : Ctx) (bound : List Ident) : RExpr → Prop
  | .var _ x => (∃ k, Γ x = some (.var .none k)) → x ∈ bound
  | .call _ _ args => InScopeL Γ bound args
  | .ite _ c a b => c.InScope Γ bound ∧ a.InScope Γ bound ∧ b.InScope Γ bound
  | .bin _ _ a b => a.InScope Γ bound ∧ b.InScope Γ bound
  | .un _ _ a => a.InScope Γ bound
  | .cast _ a => a.InScope Γ bound
  | .quant _ _ vs tr a =>
    (∀ v ∈ vs, ∃ k, Γ v.var.id = some (.var (.val v.var.ty) k)) ∧ InScopeLL Γ bound tr ∧ a.InScope Γ bound
  | .subst _ x v a => v.InScope Γ bound ∧ a.InScope Γ (x :: bound)
  | .lit _ _ => True

/-- `RExpr.InScope` for lists. -/
def InScopeL (Γ : Ctx) (bound : List Ident) : List RExpr → Prop
  | [] => True
  | e :: es => e.InScope Γ bound ∧ InScopeL Γ bound es

/-- `RExpr.InScope` for triggers. -/
def InScopeLL (Γ : Ctx) (bound : List Ident) : List (List RExpr) → Prop
  | [] => True
  | es :: ess => InScopeL Γ bound es ∧ InScopeLL Γ bound ess

end

mutual

/-- The tree has no casts and no string literals. -/
def RExpr.Plain : RExpr → Prop
  | .var _ _ => True
  | .call _ _ args => PlainL args
  | .ite _ c a b => c.Plain ∧ a.Plain ∧ b.Plain
  | .bin _ _ a b => a.Plain ∧ b.Plain
  | .un _ _ a => a.Plain
  | .cast _ _ => False
  | .quant _ _ _ tr a => PlainLL tr ∧ a.Plain
  | .subst _ _ v a => v.Plain ∧ a.Plain
  | .lit _ (.str _) => False
  | .lit _ _ => True

/-- `RExpr.Plain` for lists. -/
def PlainL : List RExpr → Prop
  | [] => True
  | e :: es => e.Plain ∧ PlainL es

/-- `RExpr.Plain` for triggers. -/
def PlainLL : List (List RExpr) → Prop
  | [] => True
  | es :: ess => PlainL es ∧ PlainLL ess

end

mutual

/-- The arguments of functions in `isLen` have a list as their type. -/
def RExpr.LenOk (isLen : Ident → Prop) : RExpr → Prop
  | .var _ _ => True
  | .call _ f args => (isLen f → ∀ a ∈ args, ∀ t, a.ty = some t → ∃ s, t = .val (.list s)) ∧ LenOkL isLen args
  | .ite _ c a b => c.LenOk isLen ∧ a.LenOk isLen ∧ b.LenOk isLen
  | .bin _ _ a b => a.LenOk isLen ∧ b.LenOk isLen
  | .un _ _ a => a.LenOk isLen
  | .cast _ a => a.LenOk isLen
  | .quant _ _ _ tr a => LenOkLL isLen tr ∧ a.LenOk isLen
  | .subst _ _ v a => v.LenOk isLen ∧ a.LenOk isLen
  | .lit _ _ => True

/-- `RExpr.LenOk` for lists. -/
def LenOkL (isLen : Ident → Prop) : List RExpr → Prop
  | [] => True
  | e :: es => e.LenOk isLen ∧ LenOkL isLen es

/-- `RExpr.LenOk` for triggers. -/
def LenOkLL (isLen : Ident → Prop) : List (List RExpr) → Prop
  | [] => True
  | es :: ess => LenOkL isLen es ∧ LenOkLL isLen ess

end

/-- Declared variables have the type of a value, except for the placeholder of `let`. -/
def CtxOk (Γ : Ctx) : Prop := ∀ x t k, Γ x = some (.var t k) → (t = .none ∧ k = .subst) ∨ ∃ s, t = .val s

/-- An expression as name resolution leaves it. The variables bound by `let` are different from each other, and declared without a type
(`src/front/resolve.rs:277-291`). -/
structure Resolved (Γ : Ctx) (e : RExpr) : Prop where
  ctx : CtxOk Γ
  lets : ∀ x ∈ e.lets, Γ x = some (.var .none .subst)
  nodup : e.lets.Nodup
  scope : e.InScope Γ []
  plain : e.Plain

/-- `len` is applied to lists only. The type checker does not see to that. -/
def LenOnLists (Γ : Ctx) (e : RExpr) : Prop := e.LenOk fun f => Γ f = some (.listOp .len)

/-! ## Statements -/

/-- `x` is a variable of type `t` that may be assigned to. -/
def Assignable (Γ : Ctx) (x : Ident) (t : Ty) : Prop := ∃ k, Γ x = some (.var (.val t) k) ∧ (k = .mut ∨ k = .output)

/-- The variables that `@omega_invariant` and `@ast` introduce are variables, and declared with their type
(`src/proof_rules/omega.rs:66-97`, `src/proof_rules/mciver_ast.rs:80-116`). -/
def AnnShape (Γ : Ctx) (k : AnnKind) (args : List RExpr) : Prop :=
  match k with
  | .omegaInvariant => ∃ ty x as, args = .var ty x :: as ∧ Assignable Γ x .uint
  | .ast => ∃ i v ty x as, args = i :: v :: .var ty x :: as ∧ Assignable Γ x .ureal
  | _ => True

mutual

/-- The variables bound by `let`, in the order in which they are visited. -/
def RStmt.lets : RStmt → List Ident
  | .seq ss => letsB ss
  | .var _ _ (some e) => e.lets
  | .var _ _ none => []
  | .assign _ e => e.lets
  | .havoc _ _ => []
  | .assert _ e => e.lets
  | .assume _ e => e.lets
  | .compare _ e => e.lets
  | .negate _ => []
  | .validate _ => []
  | .tick e => e.lets
  | .weigh e => e.lets
  | .demonic a b => letsB a ++ letsB b
  | .angelic a b => letsB a ++ letsB b
  | .additive a b => letsB a ++ letsB b
  | .ite c a b => c.lets ++ (letsB a ++ letsB b)
  | .while c b => c.lets ++ letsB b
  | .annot _ args s => letsL args ++ s.lets
  | .label _ => []

/-- `RStmt.lets` for blocks. -/
def letsB : List RStmt → List Ident
  | [] => []
  | s :: ss => s.lets ++ letsB ss

end

mutual

/-- Names are in scope, declared variables are known, and annotations are built-in ones. -/
def RStmt.InScope (Γ : Ctx) : RStmt → Prop
  | .seq ss => InScopeB Γ ss
  | .var x t (some e) => Assignable Γ x t ∧ e.InScope Γ []
  | .var x t none => Assignable Γ x t
  | .assign _ e => e.InScope Γ []
  | .havoc _ _ => True
  | .assert _ e => e.InScope Γ []
  | .assume _ e => e.InScope Γ []
  | .compare _ e => e.InScope Γ []
  | .negate _ => True
  | .validate _ => True
  | .tick e => e.InScope Γ []
  | .weigh e => e.InScope Γ []
  | .demonic a b => InScopeB Γ a ∧ InScopeB Γ b
  | .angelic a b => InScopeB Γ a ∧ InScopeB Γ b
  | .additive a b => InScopeB Γ a ∧ InScopeB Γ b
  | .ite c a b => c.InScope Γ [] ∧ InScopeB Γ a ∧ InScopeB Γ b
  | .while c b => c.InScope Γ [] ∧ InScopeB Γ b
  | .annot f args s => (∃ k, Γ f = some (.annot k) ∧ AnnShape Γ k args) ∧ InScopeL Γ [] args ∧ s.InScope Γ
  | .label _ => True

/-- `RStmt.InScope` for blocks. -/
def InScopeB (Γ : Ctx) : List RStmt → Prop
  | [] => True
  | s :: ss => s.InScope Γ ∧ InScopeB Γ ss

end

mutual

/-- There are no casts, and no string literals except for the messages of slicing annotations. -/
def RStmt.Plain : RStmt → Prop
  | .seq ss => PlainB ss
  | .var _ _ (some e) => e.Plain
  | .var _ _ none => True
  | .assign _ e => e.Plain
  | .havoc _ _ => True
  | .assert _ e => e.Plain
  | .assume _ e => e.Plain
  | .compare _ e => e.Plain
  | .negate _ => True
  | .validate _ => True
  | .tick e => e.Plain
  | .weigh e => e.Plain
  | .demonic a b => PlainB a ∧ PlainB b
  | .angelic a b => PlainB a ∧ PlainB b
  | .additive a b => PlainB a ∧ PlainB b
  | .ite c a b => c.Plain ∧ PlainB a ∧ PlainB b
  | .while c b => c.Plain ∧ PlainB b
  | .annot _ args s => (PlainL args ∨ ∃ ty m, args = [.lit ty (.str m)]) ∧ s.Plain
  | .label _ => True

/-- `RStmt.Plain` for blocks. -/
def PlainB : List RStmt → Prop
  | [] => True
  | s :: ss => s.Plain ∧ PlainB ss

end

mutual

/-- The arguments of functions in `isLen` have a list as their type. -/
def RStmt.LenOk (isLen : Ident → Prop) : RStmt → Prop
  | .seq ss => LenOkB isLen ss
  | .var _ _ (some e) => e.LenOk isLen
  | .var _ _ none => True
  | .assign _ e => e.LenOk isLen
  | .havoc _ _ => True
  | .assert _ e => e.LenOk isLen
  | .assume _ e => e.LenOk isLen
  | .compare _ e => e.LenOk isLen
  | .negate _ => True
  | .validate _ => True
  | .tick e => e.LenOk isLen
  | .weigh e => e.LenOk isLen
  | .demonic a b => LenOkB isLen a ∧ LenOkB isLen b
  | .angelic a b => LenOkB isLen a ∧ LenOkB isLen b
  | .additive a b => LenOkB isLen a ∧ LenOkB isLen b
  | .ite c a b => c.LenOk isLen ∧ LenOkB isLen a ∧ LenOkB isLen b
  | .while c b => c.LenOk isLen ∧ LenOkB isLen b
  | .annot _ args s => LenOkL isLen args ∧ s.LenOk isLen
  | .label _ => True

/-- `RStmt.LenOk` for blocks. -/
def LenOkB (isLen : Ident → Prop) : List RStmt → Prop
  | [] => True
  | s :: ss => s.LenOk isLen ∧ LenOkB isLen ss

end

/-- A block as name resolution leaves it. -/
structure ResolvedB (Γ : Ctx) (ss : List RStmt) : Prop where
  ctx : CtxOk Γ
  lets : ∀ x ∈ letsB ss, Γ x = some (.var .none .subst)
  nodup : (letsB ss).Nodup
  scope : InScopeB Γ ss
  plain : PlainB ss

/-- The expression of a specification. -/
def RSpec.expr : RSpec → RExpr
  | .requires e => e
  | .ensures e => e

/-- The variables bound by `let` in specifications. -/
def letsSpec : List RSpec → List Ident
  | [] => []
  | s :: ss => s.expr.lets ++ letsSpec ss

/-- The body, or an empty block. -/
def RProc.block (p : RProc) : List RStmt := p.body.getD []

/-- A procedure as name resolution leaves it. -/
structure ResolvedP (Γ : Ctx) (p : RProc) : Prop where
  ctx : CtxOk Γ
  lets : ∀ x ∈ letsSpec p.spec ++ letsB p.block, Γ x = some (.var .none .subst)
  nodup : (letsSpec p.spec ++ letsB p.block).Nodup
  specScope : ∀ s ∈ p.spec, s.expr.InScope Γ []
  specPlain : ∀ s ∈ p.spec, s.expr.Plain
  scope : InScopeB Γ p.block
  plain : PlainB p.block

/-- `len` is applied to lists only. -/
def LenOnListsP (Γ : Ctx) (p : RProc) : Prop :=
  (∀ s ∈ p.spec, LenOnLists Γ s.expr) ∧ LenOkB (fun f => Γ f = some (.listOp .len)) p.block

end Front
end Caesar
