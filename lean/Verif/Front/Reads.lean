import Verif.Front.Scoped

/-!
# Specification: the typed program that an annotated syntax tree stands for

`Reads Γ e t E` says that the annotated tree `e` is well typed with type `t` for the declarations `Γ`, and that `E` is the expression of
the later phases (`Verif.Syntax`) it stands for. Annotations have to be present and right, operands have to have exactly the type the
operator needs, and casts are only from a type to a larger one. Nothing in this file refers to the type checker.
-/

namespace Caesar
namespace Front

theorem isOrd_of_isNum {t : Ty} (h : t.isNum = true) : t.isOrd = true := by cases t <;> first | rfl | cases h

/-- Binary operators with operands and result of type `t`. -/
def binOp (op : RBin) (t : Ty) : Option (BinOp t) :=
  match op, t with
  | .add, t => if h : t.isNum then some (.add h) else none
  | .sub, t => if h : t.isNum then some (.sub h) else none
  | .mul, t => if h : t.isNum then some (.mul h) else none
  | .div, t => if h : t.isFrac then some (.div h) else none
  | .mod, t => if h : t.isInteger then some (.mod h) else none
  | .and, .bool => some .and
  | .or, .bool => some .or
  | .inf, t => if h : t.isNum then some (.inf (isOrd_of_isNum h)) else none
  | .sup, t => if h : t.isNum then some (.sup (isOrd_of_isNum h)) else none
  | .impl, t => if h : t.isLat then some (.impl h) else none
  | .coimpl, t => if h : t.isLat then some (.coimpl h) else none
  | .compare, t => if h : t.isLat then some (.compare h) else none
  | .cocompare, t => if h : t.isLat then some (.cocompare h) else none
  | _, _ => none

/-- Comparisons with operands of type `t` and a Boolean result. -/
def relOp (op : RBin) (t : Ty) : Option (RelOp t) :=
  match op with
  | .eq => some .eq
  | .ne => some .ne
  | .lt => if h : t.isNum then some (.lt (isOrd_of_isNum h)) else none
  | .le => if h : t.isNum then some (.le (isOrd_of_isNum h)) else none
  | .ge => if h : t.isNum then some (.ge (isOrd_of_isNum h)) else none
  | .gt => if h : t.isNum then some (.gt (isOrd_of_isNum h)) else none
  | _ => none

/-- Unary operators with operand and result of type `t`. -/
def unOp (op : RUn) (t : Ty) : Option (UnOp t) :=
  match op with
  | .not => if h : t.isLat then some (.not h) else none
  | .non => if h : t.isLat then some (.non h) else none
  | .parens => some .parens
  | _ => none

/-- Literals. -/
inductive ReadsLit : RLit → (t : Ty) → Lit t → Prop where
  | bool (b : Bool) : ReadsLit (.bool b) .bool (.bool b)
  | uint (n : Nat) : ReadsLit (.uint n) .uint (.uint n)
  | frac (q : ℚ≥0) : ReadsLit (.frac q) .ureal (.ufrac q)
  | infinity : ReadsLit .infinity .eureal .infty

/-- `f` is a pure function with parameters of the types `ins` and a result of type `out`. The functions on lists are polymorphic. -/
inductive CallTy (Γ : Ctx) (f : Ident) : List Ty → Ty → Prop where
  | func {ins out} (h : Γ f = some (.func ins out)) : CallTy Γ f ins out
  | select {t} (h : Γ f = some (.listOp .select)) : CallTy Γ f [.list t, .uint] t
  | store {t} (h : Γ f = some (.listOp .store)) : CallTy Γ f [.list t, .uint, t] (.list t)
  | len {t} (h : Γ f = some (.listOp .len)) : CallTy Γ f [.list t] .uint

/-- `forall` and `exists` are for Booleans, `inf` and `sup` for `EUReal`. -/
inductive QuantTy : QOp → Ty → Prop where
  | inf : QuantTy .inf .eureal
  | sup : QuantTy .sup .eureal
  | forall : QuantTy .forall .bool
  | exists : QuantTy .exists .bool

/-- The expression that an annotated tree stands for. Variables have their declared type. The function `T` in the clause for quantifiers
gives the expressions that the terms of triggers stand for; triggers are not part of `Expr`. -/
inductive Reads (Γ : Ctx) : RExpr → (t : Ty) → Expr t → Prop where
  | var {t x k} (h : Γ x = some (.var (.val t) k)) : Reads Γ (.var (some (.val t)) x) t (.var x)
  | lit {l t L} (h : ReadsLit l t L) : Reads Γ (.lit (some (.val t)) l) t (.lit L)
  | call {f args ins t} (hf : CallTy Γ f ins t) (hl : args.length = ins.length)
      (as : (i : Fin ins.length) → Expr (ins.get i))
      (h : ∀ i : Fin ins.length, Reads Γ (args.get (i.cast hl.symm)) (ins.get i) (as i)) :
      Reads Γ (.call (some (.val t)) f args) t (.call ⟨f, ins⟩ as)
  | ite {c a b t C A B} (hc : Reads Γ c .bool C) (ha : Reads Γ a t A) (hb : Reads Γ b t B) :
      Reads Γ (.ite (some (.val t)) c a b) t (.ite C A B)
  | bin {op a b t o A B} (ho : binOp op t = some o) (ha : Reads Γ a t A) (hb : Reads Γ b t B) :
      Reads Γ (.bin (some (.val t)) op a b) t (.bin o A B)
  | rel {op a b t o A B} (ho : relOp op t = some o) (ha : Reads Γ a t A) (hb : Reads Γ b t B) :
      Reads Γ (.bin (some (.val .bool)) op a b) .bool (.rel o A B)
  | un {op a t o A} (ho : unOp op t = some o) (ha : Reads Γ a t A) :
      Reads Γ (.un (some (.val t)) op a) t (.un o A)
  | embed {a A} (ha : Reads Γ a .bool A) : Reads Γ (.un (some (.val .eureal)) .embed a) .eureal (.embed A)
  | iverson {a A} (ha : Reads Γ a .bool A) : Reads Γ (.un (some (.val .eureal)) .iverson a) .eureal (.iverson A)
  | cast {a s t A} (c : CastOp s t) (ha : Reads Γ a s A) : Reads Γ (.cast (some (.val t)) a) t (.cast c A)
  | quant {op vs triggers a t A} (hq : QuantTy op t) (hl : t.isLat = true)
      (hv : ∀ v ∈ vs, ∃ k, Γ v.var.id = some (.var (.val v.var.ty) k))
      (T : RExpr → (s : Ty) × Expr s) (ht : ∀ tr ∈ triggers, ∀ e ∈ tr, Reads Γ e (T e).1 (T e).2)
      (ha : Reads Γ a t A) : Reads Γ (.quant (some (.val t)) op vs triggers a) t (.quant op hl vs A)
  | subst {x v a t k} {X : Var} {V A} (hx : Γ x = some (.var (.val X.ty) k)) (hi : X.id = x) (hv : Reads Γ v X.ty V)
      (ha : Reads Γ a t A) : Reads Γ (.subst (some (.val t)) x v a) t (.subst X V A)

/-! ## Statements -/

/-- Arguments of the types `ts`. -/
def ReadsArgs (Γ : Ctx) (args : List RExpr) (ts : List Ty) (as : List ((t : Ty) × Expr t)) : Prop :=
  as.map Sigma.fst = ts ∧ List.Forall₂ (fun e a => Reads Γ e a.1 a.2) args as

/-- A literal of type `UInt`. -/
def uintLit (n : Nat) : RExpr := .lit (some (.val .uint)) (.uint n)

/-- Calls of the distributions. -/
inductive ReadsDist (Γ : Ctx) : DistKind → List RExpr → (t : Ty) → DistCall t → Prop where
  | ber (pa pb) : ReadsDist Γ .ber [uintLit pa, uintLit pb] .bool (.ber pa pb)
  | flip {p P} (h : Reads Γ p .ureal P) : ReadsDist Γ .flip [p] .bool (.flip P)
  | unif (a b) : ReadsDist Γ .unif [uintLit a, uintLit b] .uint (.unif a b)
  | binom (n pa pb) : ReadsDist Γ .binom [uintLit n, uintLit pa, uintLit pb] .uint (.binom n pa pb)
  | hyper (pN k pn) : ReadsDist Γ .hyper [uintLit pN, uintLit k, uintLit pn] .uint (.hyper pN k pn)

/-- Annotations of statements. The messages of slicing annotations are not part of the model. -/
inductive ReadsAnn (Γ : Ctx) : AnnKind → List RExpr → Annot → Prop where
  | invariant {e E} (h : Reads Γ e .eureal E) : ReadsAnn Γ .invariant [e] (.invariant E)
  | kInduction {n e E} (h : Reads Γ e .eureal E) : ReadsAnn Γ .kInduction [uintLit n, e] (.kInduction n E)
  | unroll {n e E} (h : Reads Γ e .eureal E) : ReadsAnn Γ .unroll [uintLit n, e] (.unroll n E)
  | omegaInvariant {x k e E} (hx : Γ x = some (.var (.val .uint) k)) (h : Reads Γ e .eureal E) :
      ReadsAnn Γ .omegaInvariant [.var (some (.val .uint)) x, e] (.omegaInvariant x E)
  | past {e eps k E P K} (he : Reads Γ e .eureal E) (hp : Reads Γ eps .ureal P) (hk : Reads Γ k .ureal K) :
      ReadsAnn Γ .past [e, eps, k] (.past E P K)
  | ost {e p c q E P C Q} (he : Reads Γ e .eureal E) (hp : Reads Γ p .eureal P) (hc : Reads Γ c .ureal C)
      (hq : Reads Γ q .eureal Q) : ReadsAnn Γ .ost [e, p, c, q] (.ost E P C Q)
  | ast {i v x k p d I V P D} (hi : Reads Γ i .bool I) (hv : Reads Γ v .ureal V) (hx : Γ x = some (.var (.val .ureal) k))
      (hp : Reads Γ p .ureal P) (hd : Reads Γ d .ureal D) :
      ReadsAnn Γ .ast [i, v, .var (some (.val .ureal)) x, p, d] (.ast I V x P D)
  | slice {k m args} : ReadsAnn Γ (.slice k m) args (.slicing k)

mutual

/-- The statement that an annotated tree stands for. -/
inductive ReadsS (Γ : Ctx) : RStmt → Stmt → Prop where
  | seq {ss S} (h : ReadsB Γ ss S) : ReadsS Γ (.seq ss) S
  | varDecl {x t} (hx : Assignable Γ x t) : ReadsS Γ (.var x t none) (.varDecl ⟨x, t⟩)
  | varInit {x t e E} (hx : Assignable Γ x t) (h : Reads Γ e t E) : ReadsS Γ (.var x t (some e)) (.varInit ⟨x, t⟩ E)
  | varSample {x t f args k ty d} (hx : Assignable Γ x t) (hf : Γ f = some (.dist k)) (h : ReadsDist Γ k args t d) :
      ReadsS Γ (.var x t (some (.call ty f args))) (.sample true x d)
  | varCall {x t f args ins ty as} (hx : Assignable Γ x t) (hf : Γ f = some (.proc ins [t])) (h : ReadsArgs Γ args ins as) :
      ReadsS Γ (.var x t (some (.call ty f args))) (.call true [⟨x, t⟩] f as)
  | assign {x t e E} (hx : Assignable Γ x t) (h : Reads Γ e t E) : ReadsS Γ (.assign [x] e) (.assign ⟨x, t⟩ E)
  | sample {x t f args k ty d} (hx : Assignable Γ x t) (hf : Γ f = some (.dist k)) (h : ReadsDist Γ k args t d) :
      ReadsS Γ (.assign [x] (.call ty f args)) (.sample false x d)
  | call {lhs f args ins outs ty as} (hl : List.Forall₂ (Assignable Γ) (lhs.map Var.id) outs) (ht : lhs.map Var.ty = outs)
      (hf : Γ f = some (.proc ins outs)) (h : ReadsArgs Γ args ins as) :
      ReadsS Γ (.assign (lhs.map Var.id) (.call ty f args)) (.call false lhs f as)
  | havoc {d} {xs : List Var} (h : ∀ x ∈ xs, Assignable Γ x.id x.ty) : ReadsS Γ (.havoc d (xs.map Var.id)) (.havoc d xs)
  | assert {d e E} (h : Reads Γ e .eureal E) : ReadsS Γ (.assert d e) (.assert d E)
  | assume {d e E} (h : Reads Γ e .eureal E) : ReadsS Γ (.assume d e) (.assume d E)
  | compare {d e E} (h : Reads Γ e .eureal E) : ReadsS Γ (.compare d e) (.compare d E)
  | negate {d} : ReadsS Γ (.negate d) (.negate d)
  | validate {d} : ReadsS Γ (.validate d) (.validate d)
  | tick {e E} (h : Reads Γ e .eureal E) : ReadsS Γ (.tick e) (.tick E)
  | weigh {e E} (h : Reads Γ e .eureal E) : ReadsS Γ (.weigh e) (.weigh E)
  | demonic {a b A B} (ha : ReadsB Γ a A) (hb : ReadsB Γ b B) : ReadsS Γ (.demonic a b) (.demonic A B)
  | angelic {a b A B} (ha : ReadsB Γ a A) (hb : ReadsB Γ b B) : ReadsS Γ (.angelic a b) (.angelic A B)
  | additive {a b A B} (ha : ReadsB Γ a A) (hb : ReadsB Γ b B) : ReadsS Γ (.additive a b) (.additive A B)
  | ite {c a b C A B} (hc : Reads Γ c .bool C) (ha : ReadsB Γ a A) (hb : ReadsB Γ b B) :
      ReadsS Γ (.ite c a b) (.ite C A B)
  | while {c b C B} (hc : Reads Γ c .bool C) (hb : ReadsB Γ b B) : ReadsS Γ (.while c b) (.while C B)
  | annot {f k args s An S} (hf : Γ f = some (.annot k)) (ha : ReadsAnn Γ k args An) (h : ReadsS Γ s S) :
      ReadsS Γ (.annot f args s) (.annot An S)
  | label {l} : ReadsS Γ (.label l) (.label l)

/-- The statement that a block stands for. -/
inductive ReadsB (Γ : Ctx) : List RStmt → Stmt → Prop where
  | nil : ReadsB Γ [] .skip
  | cons {s ss S SS} (h : ReadsS Γ s S) (hs : ReadsB Γ ss SS) : ReadsB Γ (s :: ss) (.seq S SS)

end

/-- Specifications. -/
inductive ReadsSpec (Γ : Ctx) : RSpec → ProcSpec → Prop where
  | requires {e E} (h : Reads Γ e .eureal E) : ReadsSpec Γ (.requires e) (.requires E)
  | ensures {e E} (h : Reads Γ e .eureal E) : ReadsSpec Γ (.ensures e) (.ensures E)

/-- Bodies. -/
inductive ReadsBody (Γ : Ctx) : Option (List RStmt) → Option Stmt → Prop where
  | none : ReadsBody Γ none none
  | some {b B} (h : ReadsB Γ b B) : ReadsBody Γ (some b) (some B)

/-- The procedure that an annotated declaration stands for. -/
structure ReadsProc (Γ : Ctx) (p : RProc) (P : Proc) : Prop where
  name : P.name = p.name
  dir : P.dir = p.dir
  inputs : P.inputs = p.inputs
  outputs : P.outputs = p.outputs
  spec : List.Forall₂ (ReadsSpec Γ) p.spec P.spec
  body : ReadsBody Γ p.body P.body

/-! ## Forgetting what the type checker adds -/

mutual

/-- The tree without type annotations and casts. -/
def RExpr.strip : RExpr → RExpr
  | .var _ x => .var none x
  | .call _ f args => .call none f (stripL args)
  | .ite _ c a b => .ite none c.strip a.strip b.strip
  | .bin _ op a b => .bin none op a.strip b.strip
  | .un _ op a => .un none op a.strip
  | .cast _ a => a.strip
  | .quant _ op vs tr a => .quant none op vs (stripLL tr) a.strip
  | .subst _ x v a => .subst none x v.strip a.strip
  | .lit _ l => .lit none l

/-- `RExpr.strip` for lists. -/
def stripL : List RExpr → List RExpr
  | [] => []
  | e :: es => e.strip :: stripL es

/-- `RExpr.strip` for triggers. -/
def stripLL : List (List RExpr) → List (List RExpr)
  | [] => []
  | es :: ess => stripL es :: stripLL ess

end

mutual

/-- The statement without type annotations and casts. -/
def RStmt.strip : RStmt → RStmt
  | .seq ss => .seq (stripB ss)
  | .var x t init => .var x t (init.map RExpr.strip)
  | .assign lhs rhs => .assign lhs rhs.strip
  | .havoc d xs => .havoc d xs
  | .assert d e => .assert d e.strip
  | .assume d e => .assume d e.strip
  | .compare d e => .compare d e.strip
  | .negate d => .negate d
  | .validate d => .validate d
  | .tick e => .tick e.strip
  | .weigh e => .weigh e.strip
  | .demonic a b => .demonic (stripB a) (stripB b)
  | .angelic a b => .angelic (stripB a) (stripB b)
  | .additive a b => .additive (stripB a) (stripB b)
  | .ite c a b => .ite c.strip (stripB a) (stripB b)
  | .while c b => .while c.strip (stripB b)
  | .annot f args s => .annot f (stripL args) s.strip
  | .label l => .label l

/-- `RStmt.strip` for blocks. -/
def stripB : List RStmt → List RStmt
  | [] => []
  | s :: ss => s.strip :: stripB ss

end

/-- `RExpr.strip` for specifications. -/
def RSpec.strip : RSpec → RSpec
  | .requires e => .requires e.strip
  | .ensures e => .ensures e.strip

/-- The declaration without type annotations and casts. -/
def RProc.strip (p : RProc) : RProc := { p with spec := p.spec.map RSpec.strip, body := p.body.map stripB }

end Front
end Caesar
