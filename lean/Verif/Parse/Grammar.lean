import Verif.Front.Resolve

/-!
# The grammars of HeyVL

Models `src/front/parser/grammar.lalrpop` and `src/front/parser/precedence_update/grammar_old.lalrpop` as sets of productions over tokens. LALRPOP
turns the annotations `precedence` and `assoc` into one nonterminal for each level: on a level that is associative to the left, the left
operand is of the same level and the right operand of the level below, and so on. That is what `Ex` spells out. The parsers that LALRPOP generates are not
modelled; they are taken to find the tree that the productions give.

Simplifications: the tokens of a variable with its type, as in `x: []UInt`, are one token, and likewise `: T` for the type of a function. Types are
resolved already, as in the rest of the front end. Symbols with two spellings are one token. Spans of expressions and statements are dropped.
-/

namespace Caesar
namespace Parse

open Front

/-- The keywords of statements and declarations (`src/front/parser/grammar.lalrpop:200-298`). Keywords that come in two variants, as
`assert` and `coassert`, have a direction. `reward` and `tick` are the same. -/
inductive Kw where
  | var | havoc (d : Dir) | assert (d : Dir) | assume (d : Dir) | compare (d : Dir) | tick | weigh | negate (d : Dir) | validate (d : Dir)
  | ifT | elseT | whileT | label | proc (d : Dir) | pre | post | domain | func | ax
  deriving DecidableEq

/-- Tokens. `id` is `Ident` (`src/front/parser/grammar.lalrpop:36-44`), `lit` is `LitKind` (lines 75-82), `op` are the symbols of the binary
operators (lines 68-72,103-149), `decl` is `Ident ":" Ty` (lines 49-52,172-175), `ofTy` is `":" Ty`, and `brackets` is `[]` in a type without a name. -/
inductive Tok where
  | id (x : Ident) | lit (l : RLit) | op (o : RBin) | decl (v : Var) | ofTy (t : Ty) | q (o : QOp)
  | bang | tilde | quest | lpar | rpar | lbrk | rbrk | comma | dot | letT | iteT | trigger
  | kw (k : Kw) | eqT | semi | lbrace | rbrace | oplus | atT | arrow | computable | brackets

/-- The argument of `assoc`. -/
inductive Side where
  | left | right | none
  deriving DecidableEq

/-- A table of precedences: levels of the operators, associativity of the levels, and the level of quantifiers. -/
structure Prec where
  lev : RBin → Nat
  side : Nat → Side
  top : Nat

/-- The levels of `ExprKindOp` (`src/front/parser/grammar.lalrpop:97-160`). -/
def newG : Prec where
  lev
    | .mul | .div | .mod => 1
    | .add | .sub => 2
    | .inf | .sup => 3
    | .lt | .le | .ge | .gt => 4
    | .eq | .ne => 5
    | .and => 6
    | .or => 7
    | .impl | .coimpl | .compare | .cocompare => 8
  side
    | 1 | 2 | 3 => .left
    | 4 | 5 => .none
    | 6 | 7 => .left
    | 8 => .right
    | _ => .none
  top := 9

/-- The old grammar has a nonterminal for each level: `ExprKindFactor`, `ExprKindSummand`, `ExprKindLattice`, `ExprKindCompare`, `ExprKindAnd`,
`ExprKindOr`, `ExprKindQuant` (`src/front/parser/precedence_update/grammar_old.lalrpop:70-148`). -/
def oldG : Prec where
  lev
    | .mul | .div | .mod => 1
    | .add | .sub => 2
    | .inf | .sup | .impl | .coimpl | .compare | .cocompare => 3
    | .eq | .lt | .le | .ne | .ge | .gt => 4
    | .and => 5
    | .or => 6
  side
    | 1 | 2 | 3 | 4 | 5 => .right
    | 6 => .left
    | _ => .none
  top := 7

/-- `CommaPlus<QuantVar>` (`src/front/parser/grammar.lalrpop:21-26,172-175`). -/
inductive Vars : List Tok → List Var → Prop where
  | one (v) : Vars [.decl v] [v]
  | cons {ts vs} (v) (h : Vars ts vs) : Vars (.decl v :: .comma :: ts) (v :: vs)

mutual

/-- `ExprKindAtomic` (`src/front/parser/grammar.lalrpop:84-95`), in the old grammar `ExprKindTerm` and `ExprCall`
(`src/front/parser/precedence_update/grammar_old.lalrpop:150-165`). -/
inductive Atom (G : Prec) : List Tok → RExpr → Prop where
  | subst {ts us v e} (x) (hv : Ex G G.top ts v) (he : Ex G G.top us e) :
      Atom G (.letT :: .lpar :: .id x :: .comma :: (ts ++ .comma :: (us ++ [.rpar]))) (.subst none x v e)
  | ite {ts us ws c a b} (hc : Ex G G.top ts c) (ha : Ex G G.top us a) (hb : Ex G G.top ws b) :
      Atom G (.iteT :: .lpar :: (ts ++ .comma :: (us ++ .comma :: (ws ++ [.rpar])))) (.ite none c a b)
  | not {ts a} (h : Atom G ts a) : Atom G (.bang :: ts) (.un none .not a)
  | non {ts a} (h : Atom G ts a) : Atom G (.tilde :: ts) (.un none .non a)
  | embed {ts a} (h : Atom G ts a) : Atom G (.quest :: ts) (.un none .embed a)
  | call {ts as} (f) (h : Args G ts as) : Atom G (.id f :: .lpar :: (ts ++ [.rpar])) (.call none f as)
  | iverson {ts a} (h : Ex G G.top ts a) : Atom G (.lbrk :: (ts ++ [.rbrk])) (.un none .iverson a)
  | parens {ts a} (h : Ex G G.top ts a) : Atom G (.lpar :: (ts ++ [.rpar])) (.un none .parens a)
  | lit (l) : Atom G [.lit l] (.lit none l)
  | var (x) : Atom G [.id x] (.var none x)

/-- `ExprNode<ExprKindOp>` on each level (`src/front/parser/grammar.lalrpop:97-160`). -/
inductive Ex (G : Prec) : Nat → List Tok → RExpr → Prop where
  | atom {ts e} (h : Atom G ts e) : Ex G 0 ts e
  | up {k ts e} (hk : k < G.top) (h : Ex G k ts e) : Ex G (k + 1) ts e
  | left {k l r a b} (o) (hl : G.lev o = k + 1) (hs : G.side (k + 1) = .left) (ha : Ex G (k + 1) l a) (hb : Ex G k r b) :
      Ex G (k + 1) (l ++ .op o :: r) (.bin none o a b)
  | right {k l r a b} (o) (hl : G.lev o = k + 1) (hs : G.side (k + 1) = .right) (ha : Ex G k l a) (hb : Ex G (k + 1) r b) :
      Ex G (k + 1) (l ++ .op o :: r) (.bin none o a b)
  | flat {k l r a b} (o) (hl : G.lev o = k + 1) (hs : G.side (k + 1) = .none) (ha : Ex G k l a) (hb : Ex G k r b) :
      Ex G (k + 1) (l ++ .op o :: r) (.bin none o a b)
  | quant {vs as ts vars trs e} (o) (hv : Vars vs vars) (ha : Anns G as trs) (h : Ex G G.top ts e) :
      Ex G G.top (.q o :: (vs ++ (as ++ .dot :: ts))) (.quant none o (vars.map fun v => ⟨true, v⟩) trs e)

/-- `Comma<Expr>` (`src/front/parser/grammar.lalrpop:11-19`): a comma after the last expression is allowed. -/
inductive Args (G : Prec) : List Tok → List RExpr → Prop where
  | nil : Args G [] []
  | one {ts e} (h : Ex G G.top ts e) : Args G ts [e]
  | cons {ts us e es} (h : Ex G G.top ts e) (hs : Args G us es) : Args G (ts ++ .comma :: us) (e :: es)

/-- `QuantAnn*` (`src/front/parser/grammar.lalrpop:177-183`). The action panics on an empty trigger (`src/ast/expr.rs:348-350`). -/
inductive Anns (G : Prec) : List Tok → List (List RExpr) → Prop where
  | empty : Anns G [] []
  | more {ts us es trs} (h : Args G ts es) (hne : es ≠ []) (hs : Anns G us trs) :
      Anns G (.trigger :: .lpar :: (ts ++ .rpar :: us)) (es :: trs)

end

/-- The nonterminal `Expr` (`src/front/parser/grammar.lalrpop:66`). -/
abbrev Derives (G : Prec) (ts : List Tok) (e : RExpr) : Prop := Ex G G.top ts e

/-! ## Statements -/

/-- `CommaPlus<Ident>` (`src/front/parser/grammar.lalrpop:21-26`). -/
inductive Ids : List Tok → List Ident → Prop where
  | one (x) : Ids [.id x] [x]
  | cons {ts xs} (x) (h : Ids ts xs) : Ids (.id x :: .comma :: ts) (x :: xs)

/-- `AnnotationInputs?` (`src/front/parser/grammar.lalrpop:235,243-245`). -/
inductive Inputs (G : Prec) : List Tok → List RExpr → Prop where
  | absent : Inputs G [] []
  | given {ts es} (h : Args G ts es) : Inputs G (.lpar :: (ts ++ [.rpar])) es

/-- `SymOplus`, `SymCap`, `SymCup` after `if` (`src/front/parser/grammar.lalrpop:68-70,229-231`). -/
inductive Choice where
  | additive | demonic | angelic
  deriving DecidableEq

/-- The tokens of `SymOplus`, `SymCap` and `SymCup`. -/
inductive ChoiceTok : Tok → Choice → Prop where
  | plus : ChoiceTok (.op .add) .additive
  | oplus : ChoiceTok .oplus .additive
  | cap : ChoiceTok (.op .inf) .demonic
  | cup : ChoiceTok (.op .sup) .angelic

/-- The statements for choices. -/
def Choice.stmt : Choice → List RStmt → List RStmt → RStmt
  | .additive => .additive
  | .demonic => .demonic
  | .angelic => .angelic

/-- The statements with a keyword and one expression (`src/front/parser/grammar.lalrpop:216-224`). -/
inductive ExprKw : Kw → (RExpr → RStmt) → Prop where
  | assert (d) : ExprKw (.assert d) (.assert d)
  | assume (d) : ExprKw (.assume d) (.assume d)
  | compare (d) : ExprKw (.compare d) (.compare d)
  | tick : ExprKw .tick .tick
  | weigh : ExprKw .weigh .weigh

mutual

/-- `StmtKind` (`src/front/parser/grammar.lalrpop:200-237`). -/
inductive St (G : Prec) : List Tok → RStmt → Prop where
  | seq {ts ss} (h : Bl G ts ss) : St G ts (.seq ss)
  | varInit {ts e} (v : Var) (h : Derives G ts e) : St G (.kw .var :: .decl v :: .eqT :: ts) (.var v.id v.ty (some e))
  | var (v : Var) : St G [.kw .var, .decl v] (.var v.id v.ty none)
  | assign {ts us xs e} (hx : Ids ts xs) (h : Derives G us e) : St G (ts ++ .eqT :: us) (.assign xs e)
  | call {ts as} (f) (h : Args G ts as) : St G (.id f :: .lpar :: (ts ++ [.rpar])) (.assign [] (.call none f as))
  | havoc {ts xs} (d) (h : Ids ts xs) : St G (.kw (.havoc d) :: ts) (.havoc d xs)
  | expr {k s ts e} (hk : ExprKw k s) (h : Derives G ts e) : St G (.kw k :: ts) (s e)
  | negate (d) : St G [.kw (.negate d)] (.negate d)
  | validate (d) : St G [.kw (.validate d)] (.validate d)
  | choice {t c ts us a b} (ht : ChoiceTok t c) (ha : Bl G ts a) (hb : Bl G us b) :
      St G (.kw .ifT :: t :: (ts ++ .kw .elseT :: us)) (c.stmt a b)
  | ite {cs ts us c a b} (hc : Derives G cs c) (ha : Bl G ts a) (hb : Bl G us b) :
      St G (.kw .ifT :: (cs ++ (ts ++ .kw .elseT :: us))) (.ite c a b)
  | while {cs ts c a} (hc : Derives G cs c) (ha : Bl G ts a) : St G (.kw .whileT :: (cs ++ ts)) (.while c a)
  | annot {is ts as s} (f) (hi : Inputs G is as) (h : St G ts s) : St G (.atT :: .id f :: (is ++ ts)) (.annot f as s)
  | label (l) : St G [.kw .label, .id l] (.label l)

/-- `Block` (`src/front/parser/grammar.lalrpop:239-241`). -/
inductive Bl (G : Prec) : List Tok → List RStmt → Prop where
  | mk {ts ss} (h : Sts G ts ss) : Bl G (.lbrace :: (ts ++ [.rbrace])) ss

/-- `OptSemi<Stmt>` (`src/front/parser/grammar.lalrpop:28-30,188-194`). -/
inductive Sts (G : Prec) : List Tok → List RStmt → Prop where
  | nil : Sts G [] []
  | cons {ts us s ss} (h : St G ts s) (hs : Sts G us ss) : Sts G (ts ++ us) (s :: ss)
  | semi {ts us s ss} (h : St G ts s) (hs : Sts G us ss) : Sts G (ts ++ .semi :: us) (s :: ss)

end

/-! ## Declarations -/

/-- `Comma<Param>` (`src/front/parser/grammar.lalrpop:11-19,266-272`). -/
inductive Params : List Tok → List Var → Prop where
  | nil : Params [] []
  | one (v) : Params [.decl v] [v]
  | cons {ts vs} (v) (h : Params ts vs) : Params (.decl v :: .comma :: ts) (v :: vs)

/-- `ProcSpec*` (`src/front/parser/grammar.lalrpop:274-277`). -/
inductive Specs (G : Prec) : List Tok → List RSpec → Prop where
  | nil : Specs G [] []
  | pre {ts us e ss} (h : Derives G ts e) (hs : Specs G us ss) : Specs G (.kw .pre :: (ts ++ us)) (.requires e :: ss)
  | post {ts us e ss} (h : Derives G ts e) (hs : Specs G us ss) : Specs G (.kw .post :: (ts ++ us)) (.ensures e :: ss)

/-- `Block?` in `ProcDecl`. -/
inductive Body (G : Prec) : List Tok → Option (List RStmt) → Prop where
  | absent : Body G [] none
  | given {ts ss} (h : Bl G ts ss) : Body G ts (some ss)

/-- `"@" Ident` before `proc`. -/
inductive Anno : List Tok → Option Ident → Prop where
  | absent : Anno [] none
  | given (x) : Anno [.atT, .id x] (some x)

/-- A parameter of a procedure (`src/front/parser/grammar.lalrpop:270-272`). The model of procedures has the span of the declaration, which is taken
to be the span of the name. -/
def param (v : Var) : Param := ⟨v, v.id.span⟩

/-- `DomainSpec*` (`src/front/parser/grammar.lalrpop:284-291`). -/
inductive Items (G : Prec) : List Tok → List DomItem → Prop where
  | nil : Items G [] []
  | func {ps us is vs} (f t) (hp : Params ps vs) (hs : Items G us is) :
      Items G (.kw .func :: .id f :: .lpar :: (ps ++ .rpar :: .ofTy t :: us)) (.func f vs t none :: is)
  | computable {ps us is vs} (f t) (hp : Params ps vs) (hs : Items G us is) :
      Items G (.kw .func :: .id f :: .lpar :: (ps ++ .rpar :: .ofTy t :: .computable :: us)) (.func f vs t none :: is)
  | funcBody {ps ts us is vs e} (f t) (hp : Params ps vs) (h : Derives G ts e) (hs : Items G us is) :
      Items G (.kw .func :: .id f :: .lpar :: (ps ++ .rpar :: .ofTy t :: .eqT :: (ts ++ us))) (.func f vs t (some e) :: is)
  | ax {ts us is e} (x) (h : Derives G ts e) (hs : Items G us is) : Items G (.kw .ax :: .id x :: (ts ++ us)) (.ax x e :: is)

/-- `Decl` (`src/front/parser/grammar.lalrpop:250-264,279-282`). -/
inductive De (G : Prec) : List Tok → RUnit → Prop where
  | proc {as is os ss bs anno ins outs spec body} (d : Dir) (name : Ident) (ha : Anno as anno) (hi : Params is ins) (ho : Params os outs)
      (hs : Specs G ss spec) (hb : Body G bs body) :
      De G (as ++ .kw (.proc d) :: .id name :: .lpar :: (is ++ .rpar :: .arrow :: .lpar :: (os ++ .rpar :: (ss ++ bs))))
        (.proc ⟨⟨name, d, ins.map param, outs, spec, body⟩, anno⟩)
  | domain {ts is} (name) (h : Items G ts is) : De G (.kw .domain :: .id name :: .lbrace :: (ts ++ [.rbrace])) (.domain name is)

/-- `Decls` (`src/front/parser/grammar.lalrpop:296-298`). -/
inductive Des (G : Prec) : List Tok → List RUnit → Prop where
  | nil : Des G [] []
  | cons {ts us d ds} (h : De G ts d) (hs : Des G us ds) : Des G (ts ++ us) (d :: ds)

/-- A file is a list of declarations, or with `--raw` a list of statements (`src/driver/front.rs:119-160`). -/
inductive File (G : Prec) : Bool → List Tok → List RUnit → Prop where
  | decls {ts us} (h : Des G ts us) : File G false ts us
  | raw {ts ss} (h : Sts G ts ss) : File G true ts [.raw ss]

end Parse
end Caesar
