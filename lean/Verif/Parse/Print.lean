import Verif.Parse.OldTotal

/-!
# The pretty printer

Models `SimplePretty` for expressions, statements and declarations (`src/ast/expr.rs`, `src/ast/stmt.rs`, `src/ast/decl.rs`) on tokens: white
space and line breaks are left out, and so are the spans of names. Where tokens depend on the layout, namely the separators of statements, printing is a
relation, which allows all layouts.
-/

namespace Caesar
namespace Parse

open Front

/-- `Display` for types (`src/ast/ty.rs:77-104`). The name of a domain is made from its number. -/
def ppTy : Ty → List Tok
  | .bool => [.id ⟨"Bool", 0⟩]
  | .int => [.id ⟨"Int", 0⟩]
  | .uint => [.id ⟨"UInt", 0⟩]
  | .real => [.id ⟨"Real", 0⟩]
  | .ureal => [.id ⟨"UReal", 0⟩]
  | .eureal => [.id ⟨"EUReal", 0⟩]
  | .list t => .brackets :: ppTy t
  | .dom n => [.id ⟨"Domain" ++ toString n, 0⟩]

/-- Types in casts. The other types never occur there. -/
def ppRTy : Option RTy → List Tok
  | some (.val t) => ppTy t
  | _ => []

/-- `Display` for literals (`src/ast/expr.rs:425-441`). Numbers with a decimal point are fractions, which are printed with a slash. The parser keeps a power of ten
as denominator (`src/front/parser/parser_util.rs:27`); here fractions are reduced. -/
def ppLit : RLit → List Tok
  | .frac q => [.lit (.uint q.num), .op .div, .lit (.uint q.den)]
  | l => [.lit l]

/-- `QuantVar::pretty` (`src/ast/expr.rs:294-307`). -/
def ppVar (v : QVar) : Tok := if v.fresh then .decl v.var else .id v.var.id

/-- Lists separated by commas. -/
def commas : List (List Tok) → List Tok
  | [] => []
  | [ts] => ts
  | ts :: us :: r => ts ++ .comma :: commas (us :: r)

mutual

/-- `Expr::pretty` (`src/ast/expr.rs:89-142`). -/
def ppE : RExpr → List Tok
  | .var _ x => [.id x]
  | .call _ f args => .id f :: .lpar :: (commas (ppL args) ++ [.rpar])
  | .ite _ c a b => .iteT :: .lpar :: (ppE c ++ .comma :: (ppE a ++ .comma :: (ppE b ++ [.rpar])))
  | .bin _ o a b => .lpar :: (ppE a ++ .op o :: ppE b ++ [.rpar])
  | .un _ .not a => .bang :: .lpar :: (ppE a ++ [.rpar])
  | .un _ .non a => .tilde :: .lpar :: (ppE a ++ [.rpar])
  | .un _ .embed a => .quest :: .lpar :: (ppE a ++ [.rpar])
  | .un _ .iverson a => .lbrk :: (ppE a ++ [.rbrk])
  | .un _ .parens a => .lpar :: (ppE a ++ [.rpar])
  | .cast t a => .id ⟨"cast", 0⟩ :: .lpar :: (ppRTy t ++ .comma :: (ppE a ++ [.rpar]))
  | .quant _ o vs trs a => .q o :: (commas (vs.map fun v => [ppVar v]) ++ (ppLL trs ++ .dot :: ppE a))
  | .subst _ x v a => .lpar :: (ppE a ++ .rpar :: .lbrk :: .id x :: .arrow :: (ppE v ++ [.rbrk]))
  | .lit _ l => ppLit l

/-- The elements of `pretty_list` (`src/pretty.rs:37-47`). -/
def ppL : List RExpr → List (List Tok)
  | [] => []
  | e :: es => ppE e :: ppL es

/-- `QuantAnn::pretty` (`src/ast/expr.rs:322-333`). -/
def ppLL : List (List RExpr) → List Tok
  | [] => []
  | es :: ess => .trigger :: .lpar :: (commas (ppL es) ++ .rpar :: ppLL ess)

end

/-- Names separated by commas. -/
def ppIds (xs : List Ident) : List Tok := commas (xs.map fun x => [.id x])

mutual

/-- `StmtKind::pretty` (`src/ast/stmt.rs:69-151`). -/
inductive PrS : RStmt → List Tok → Prop where
  | seq {ss ts} (h : PrB ss ts) : PrS (.seq ss) (.lbrace :: (ts ++ [.rbrace]))
  | varInit (x t e) : PrS (.var x t (some e)) (.kw .var :: .decl ⟨x, t⟩ :: .eqT :: ppE e)
  | var (x t) : PrS (.var x t none) [.kw .var, .decl ⟨x, t⟩]
  | assign (xs e) : PrS (.assign xs e) (ppIds xs ++ .eqT :: ppE e)
  | havoc (d xs) : PrS (.havoc d xs) (.kw (.havoc d) :: ppIds xs)
  | assert (d e) : PrS (.assert d e) (.kw (.assert d) :: ppE e)
  | assume (d e) : PrS (.assume d e) (.kw (.assume d) :: ppE e)
  | compare (d e) : PrS (.compare d e) (.kw (.compare d) :: ppE e)
  | negate (d) : PrS (.negate d) [.kw (.negate d)]
  | validate (d) : PrS (.validate d) [.kw (.validate d)]
  | tick (e) : PrS (.tick e) (.kw .tick :: ppE e)
  | weigh (e) : PrS (.weigh e) (.kw .weigh :: ppE e)
  | demonic {a b ts us} (ha : PrB a ts) (hb : PrB b us) :
      PrS (.demonic a b) (.kw .ifT :: .op .inf :: (.lbrace :: (ts ++ [.rbrace]) ++ .kw .elseT :: .lbrace :: (us ++ [.rbrace])))
  | angelic {a b ts us} (ha : PrB a ts) (hb : PrB b us) :
      PrS (.angelic a b) (.kw .ifT :: .op .sup :: (.lbrace :: (ts ++ [.rbrace]) ++ .kw .elseT :: .lbrace :: (us ++ [.rbrace])))
  | additive {a b ts us} (ha : PrB a ts) (hb : PrB b us) :
      PrS (.additive a b) (.kw .ifT :: .op .add :: (.lbrace :: (ts ++ [.rbrace]) ++ .kw .elseT :: .lbrace :: (us ++ [.rbrace])))
  | ite {a b ts us} (c) (ha : PrB a ts) (hb : PrB b us) :
      PrS (.ite c a b) (.kw .ifT :: (ppE c ++ (.lbrace :: (ts ++ [.rbrace]) ++ .kw .elseT :: .lbrace :: (us ++ [.rbrace]))))
  | while {a ts} (c) (ha : PrB a ts) : PrS (.while c a) (.kw .whileT :: (ppE c ++ .lbrace :: (ts ++ [.rbrace])))
  | annot {s ts} (f as) (h : PrS s ts) : PrS (.annot f as s) (.atT :: .id f :: (.lpar :: (commas (ppL as) ++ [.rpar]) ++ ts))
  | label (l) : PrS (.label l) [.kw .label, .id l]

/-- `pretty` for blocks (`src/ast/stmt.rs:9-16`): a line break or a semicolon between statements. -/
inductive PrB : List RStmt → List Tok → Prop where
  | nil : PrB [] []
  | one {s ts} (h : PrS s ts) : PrB [s] ts
  | line {s s' ss ts us} (h : PrS s ts) (hs : PrB (s' :: ss) us) : PrB (s :: s' :: ss) (ts ++ us)
  | semi {s s' ss ts us} (h : PrS s ts) (hs : PrB (s' :: ss) us) : PrB (s :: s' :: ss) (ts ++ .semi :: us)

end

/-- `ProcSpec::pretty` (`src/ast/decl.rs:434-441`). -/
def ppSpec : RSpec → List Tok
  | .requires e => .kw .pre :: ppE e
  | .ensures e => .kw .post :: ppE e

/-- The list of parameters (`src/ast/decl.rs:375-378,417-424`). -/
def ppParams (vs : List Var) : List Tok := commas (vs.map fun v => [.decl v])

/-- `FuncDecl::pretty` and `AxiomDecl::pretty` (`src/ast/decl.rs:508-548`). Functions are printed with `fn` and `->`. -/
def ppItem : DomItem → List Tok
  | .func f vs t b => .id ⟨"fn", 0⟩ :: .id f :: .lpar :: (ppParams vs ++ .rpar :: .arrow :: (ppTy t ++ match b with
    | none => []
    | some e => .eqT :: ppE e))
  | .ax x e => .kw .ax :: .id x :: ppE e

/-- `SourceUnit::pretty`, `ProcDecl::pretty`, `DomainDecl::pretty` (`src/driver/front.rs:475-482`, `src/ast/decl.rs:367-407,460-471`). The calculus
of a procedure is not printed. -/
inductive PrU : RUnit → List Tok → Prop where
  | procDecl {p} (c) (h : p.body = none) :
      PrU (.proc ⟨p, c⟩) (.kw (.proc p.dir) :: .id p.name :: .lpar :: (ppParams (p.inputs.map Param.var) ++ .rpar :: .arrow :: .lpar ::
        (ppParams p.outputs ++ .rpar :: p.spec.flatMap ppSpec)))
  | proc {p B ts} (c) (h : p.body = some B) (hb : PrB B ts) :
      PrU (.proc ⟨p, c⟩) (.kw (.proc p.dir) :: .id p.name :: .lpar :: (ppParams (p.inputs.map Param.var) ++ .rpar :: .arrow :: .lpar ::
        (ppParams p.outputs ++ .rpar :: (p.spec.flatMap ppSpec ++ .lbrace :: (ts ++ [.rbrace])))))
  | domain (x is) : PrU (.domain x is) (.kw .domain :: .id x :: .lbrace :: (is.flatMap ppItem ++ [.rbrace]))
  | raw {ss ts} (h : PrB ss ts) : PrU (.raw ss) ts

/-- All units of a file (`src/driver/front.rs:68-73`). -/
inductive PrF : List RUnit → List Tok → Prop where
  | nil : PrF [] []
  | cons {u us ts rs} (h : PrU u ts) (hs : PrF us rs) : PrF (u :: us) (ts ++ rs)

/-! ## Expressions -/

mutual

/-- The tree that the parser gives for a printed tree: there are more parentheses. -/
def rep : RExpr → RExpr
  | .var _ x => .var none x
  | .call _ f args => .call none f (repL args)
  | .ite _ c a b => .ite none (rep c) (rep a) (rep b)
  | .bin _ o a b => .un none .parens (.bin none o (rep a) (rep b))
  | .un _ .not a => .un none .not (.un none .parens (rep a))
  | .un _ .non a => .un none .non (.un none .parens (rep a))
  | .un _ .embed a => .un none .embed (.un none .parens (rep a))
  | .un _ .iverson a => .un none .iverson (rep a)
  | .un _ .parens a => .un none .parens (rep a)
  | .cast t a => .cast t (rep a)
  | .quant _ o vs trs a => .quant none o vs (repLL trs) (rep a)
  | .subst _ x v a => .subst none x (rep v) (rep a)
  | .lit _ l => .lit none l

def repL : List RExpr → List RExpr
  | [] => []
  | e :: es => rep e :: repL es

def repLL : List (List RExpr) → List (List RExpr)
  | [] => []
  | es :: ess => repL es :: repLL ess

end

/-- A quantifier. -/
def isQuant : RExpr → Bool
  | .quant _ _ _ _ _ => true
  | _ => false

/-- A literal with a decimal point. -/
def isFrac : RLit → Bool
  | .frac _ => true
  | _ => false

mutual

/-- Trees that can be printed: no casts, no `let`, no numbers with a decimal point; quantifiers are not operands. -/
def PrintOk : RExpr → Prop
  | .var _ _ => True
  | .call _ _ args => PrintOkL args
  | .ite _ c a b => PrintOk c ∧ PrintOk a ∧ PrintOk b
  | .bin _ _ a b => PrintOk a ∧ PrintOk b ∧ isQuant a = false ∧ isQuant b = false
  | .un _ _ a => PrintOk a
  | .cast _ _ => False
  | .quant _ _ vs trs a => vs ≠ [] ∧ (∀ v ∈ vs, v.fresh = true) ∧ PrintOkLL trs ∧ PrintOk a
  | .subst _ _ _ _ => False
  | .lit _ l => isFrac l = false

def PrintOkL : List RExpr → Prop
  | [] => True
  | e :: es => PrintOk e ∧ PrintOkL es

def PrintOkLL : List (List RExpr) → Prop
  | [] => True
  | es :: ess => es ≠ [] ∧ PrintOkL es ∧ PrintOkLL ess

end

theorem Ex.raiseTo {G : Prec} {k : Nat} {ts : List Tok} {e : RExpr} (h : Ex G k ts e) : ∀ n, k + n ≤ G.top → Ex G (k + n) ts e
  | 0, _ => h
  | n + 1, hn => .up (Nat.lt_of_succ_le hn) (h.raiseTo n (Nat.le_of_succ_le hn))

/-- Any operator between atoms. -/
theorem derives_bin {G : Prec} (hG : G.Ok) {o : RBin} {ts us : List Tok} {a b : RExpr} (ha : Atom G ts a) (hb : Atom G us b) :
    Derives G (ts ++ .op o :: us) (.bin none o a b) := by
  obtain ⟨k, hk⟩ : ∃ k, G.lev o = k + 1 := ⟨G.lev o - 1, by have := hG.lo o; omega⟩
  have hlt := hG.hi o
  have ra := (Ex.atom ha).raise
  have rb := (Ex.atom hb).raise
  have : Ex G (k + 1) (ts ++ .op o :: us) (.bin none o a b) := by
    cases hs : G.side (k + 1) with
    | left => exact .left o hk hs (ra _ (by omega)) (rb _ (by omega))
    | right => exact .right o hk hs (ra _ (by omega)) (rb _ (by omega))
    | none => exact .flat o hk hs (ra _ (by omega)) (rb _ (by omega))
  have := this.raiseTo (G.top - (k + 1)) (by omega)
  rwa [show k + 1 + (G.top - (k + 1)) = G.top by omega] at this

theorem vars_commas {vs : List QVar} (hne : vs ≠ []) (hf : ∀ v ∈ vs, v.fresh = true) :
    ∃ ws, Vars (commas (vs.map fun v => [ppVar v])) ws ∧ ws.map (fun v => (⟨true, v⟩ : QVar)) = vs := by
  induction vs with
  | nil => exact (hne rfl).elim
  | cons v vs ih =>
    obtain ⟨fr, v⟩ := v
    obtain rfl : fr = true := hf ⟨fr, v⟩ (.head _)
    cases vs with
    | nil => exact ⟨[v], .one v, rfl⟩
    | cons w vs =>
      obtain ⟨ws, h1, h2⟩ := ih (by simp) fun x hx => hf x (.tail _ hx)
      exact ⟨v :: ws, .cons v h1, by rw [List.map_cons, h2]⟩

theorem Atom.derives {G : Prec} {ts : List Tok} {e : RExpr} (h : Atom G ts e) : Derives G ts e := (Ex.atom h).raise _ le_rfl

mutual

theorem print_atom {G : Prec} (hG : G.Ok) : ∀ (e : RExpr), PrintOk e → isQuant e = false → Atom G (ppE e) (rep e)
  | .var _ x, _, _ => .var x
  | .call _ f args, h, _ => .call f (print_args hG args h)
  | .ite _ c a b, h, _ => .ite (print_derives hG c h.1) (print_derives hG a h.2.1) (print_derives hG b h.2.2)
  | .bin _ o a b, h, _ => by
    have := Atom.parens (derives_bin hG (o := o) (print_atom hG a h.1 h.2.2.1) (print_atom hG b h.2.1 h.2.2.2))
    simpa only [ppE, rep, List.append_assoc, List.cons_append] using this
  | .un _ .not a, h, _ => .not (.parens (print_derives hG a h))
  | .un _ .non a, h, _ => .non (.parens (print_derives hG a h))
  | .un _ .embed a, h, _ => .embed (.parens (print_derives hG a h))
  | .un _ .iverson a, h, _ => .iverson (print_derives hG a h)
  | .un _ .parens a, h, _ => .parens (print_derives hG a h)
  | .lit _ (.str s), _, _ => .lit _
  | .lit _ (.uint n), _, _ => .lit _
  | .lit _ .infinity, _, _ => .lit _
  | .lit _ (.bool b), _, _ => .lit _
  | .lit _ (.frac q), h, _ => by cases h
  | .cast _ _, h, _ => h.elim
  | .subst _ _ _ _, h, _ => h.elim
  | .quant _ _ _ _ _, _, h => by cases h

theorem print_derives {G : Prec} (hG : G.Ok) : ∀ (e : RExpr), PrintOk e → Derives G (ppE e) (rep e)
  | .quant _ o vs trs a, h => by
    obtain ⟨ws, h1, h2⟩ := vars_commas h.1 h.2.1
    have := Ex.quant o h1 (print_anns hG trs h.2.2.1) (print_derives hG a h.2.2.2)
    rw [h2] at this
    exact this
  | .var _ x, _ => Atom.derives (.var x)
  | .call _ f args, h => Atom.derives (.call f (print_args hG args h))
  | .ite _ c a b, h => Atom.derives (.ite (print_derives hG c h.1) (print_derives hG a h.2.1) (print_derives hG b h.2.2))
  | .bin _ o a b, h => by
    have := Atom.parens (derives_bin hG (o := o) (print_atom hG a h.1 h.2.2.1) (print_atom hG b h.2.1 h.2.2.2))
    simpa only [ppE, rep, List.append_assoc, List.cons_append] using Atom.derives this
  | .un _ .not a, h => Atom.derives (.not (.parens (print_derives hG a h)))
  | .un _ .non a, h => Atom.derives (.non (.parens (print_derives hG a h)))
  | .un _ .embed a, h => Atom.derives (.embed (.parens (print_derives hG a h)))
  | .un _ .iverson a, h => Atom.derives (.iverson (print_derives hG a h))
  | .un _ .parens a, h => Atom.derives (.parens (print_derives hG a h))
  | .lit _ (.str s), _ => Atom.derives (.lit _)
  | .lit _ (.uint n), _ => Atom.derives (.lit _)
  | .lit _ .infinity, _ => Atom.derives (.lit _)
  | .lit _ (.bool b), _ => Atom.derives (.lit _)
  | .lit _ (.frac q), h => by cases h
  | .cast _ _, h => h.elim
  | .subst _ _ _ _, h => h.elim

theorem print_args {G : Prec} (hG : G.Ok) : ∀ (es : List RExpr), PrintOkL es → Args G (commas (ppL es)) (repL es)
  | [], _ => .nil
  | [e], h => .one (print_derives hG e h.1)
  | e :: e' :: es, h => .cons (print_derives hG e h.1) (print_args hG (e' :: es) h.2)

theorem print_anns {G : Prec} (hG : G.Ok) : ∀ (es : List (List RExpr)), PrintOkLL es → Anns G (ppLL es) (repLL es)
  | [], _ => .empty
  | es :: ess, h => .more (print_args hG es h.2.1) (by cases es with
    | nil => exact (h.1 rfl).elim
    | cons _ _ => simp [repL]) (print_anns hG ess h.2.2)

end

/-! ## Statements and declarations -/

mutual

/-- The statement with a function applied to all expressions. -/
def mapS (f : RExpr → RExpr) : RStmt → RStmt
  | .seq ss => .seq (mapB f ss)
  | .var x t e => .var x t (e.map f)
  | .assign xs e => .assign xs (f e)
  | .assert d e => .assert d (f e)
  | .assume d e => .assume d (f e)
  | .compare d e => .compare d (f e)
  | .tick e => .tick (f e)
  | .weigh e => .weigh (f e)
  | .negate d => .negate d
  | .validate d => .validate d
  | .havoc d xs => .havoc d xs
  | .label l => .label l
  | .demonic a b => .demonic (mapB f a) (mapB f b)
  | .angelic a b => .angelic (mapB f a) (mapB f b)
  | .additive a b => .additive (mapB f a) (mapB f b)
  | .ite c a b => .ite (f c) (mapB f a) (mapB f b)
  | .while c a => .while (f c) (mapB f a)
  | .annot g as s => .annot g (as.map f) (mapS f s)

def mapB (f : RExpr → RExpr) : List RStmt → List RStmt
  | [] => []
  | s :: ss => mapS f s :: mapB f ss

end

def mapSpec (f : RExpr → RExpr) : RSpec → RSpec
  | .requires e => .requires (f e)
  | .ensures e => .ensures (f e)

def mapI (f : RExpr → RExpr) : DomItem → DomItem
  | .func g vs t b => .func g vs t (b.map f)
  | .ax x e => .ax x (f e)

/-- The unit with a function applied to all expressions. -/
def mapU (f : RExpr → RExpr) : RUnit → RUnit
  | .proc p => .proc { p with proc := { p.proc with spec := p.proc.spec.map (mapSpec f), body := p.proc.body.map (mapB f) } }
  | .domain x is => .domain x (is.map (mapI f))
  | .raw ss => .raw (mapB f ss)

/-- The unit without the calculus. -/
def noCalculus : RUnit → RUnit
  | .proc p => .proc { p with calculus := none }
  | u => u

mutual

/-- Statements that can be printed. -/
def OkS : RStmt → Prop
  | .seq ss => OkB ss
  | .var _ _ e => ∀ a ∈ e, PrintOk a
  | .assign xs e => xs ≠ [] ∧ PrintOk e
  | .assert _ e | .assume _ e | .compare _ e | .tick e | .weigh e => PrintOk e
  | .negate _ | .validate _ | .label _ => True
  | .havoc _ xs => xs ≠ []
  | .demonic a b | .angelic a b | .additive a b => OkB a ∧ OkB b
  | .ite c a b => PrintOk c ∧ OkB a ∧ OkB b
  | .while c a => PrintOk c ∧ OkB a
  | .annot _ as s => PrintOkL as ∧ OkS s

def OkB : List RStmt → Prop
  | [] => True
  | s :: ss => OkS s ∧ OkB ss

end

theorem ids_commas {xs : List Ident} (h : xs ≠ []) : Ids (ppIds xs) xs := by
  induction xs with
  | nil => exact (h rfl).elim
  | cons x xs ih =>
    cases xs with
    | nil => exact .one x
    | cons y ys => exact .cons x (ih (by simp))

theorem repL_map (es : List RExpr) : repL es = es.map rep := by
  induction es with
  | nil => rfl
  | cons e es ih => simp [repL, ih]

/-- Printed statements are parsed, for each layout. -/
theorem print_stmts {G : Prec} (hG : G.Ok) {ss : List RStmt} {ts : List Tok} (h : PrB ss ts) : OkB ss → Sts G ts (mapB rep ss) := by
  refine PrB.rec (motive_1 := fun s ts _ => OkS s → St G ts (mapS rep s)) (motive_2 := fun ss ts _ => OkB ss → Sts G ts (mapB rep ss))
    ?_ ?_ ?_ ?_ ?_ ?_ ?_ ?_ ?_ ?_ ?_ ?_ ?_ ?_ ?_ ?_ ?_ ?_ ?_ ?_ ?_ ?_ ?_ h
  · exact fun _ ih hok => .seq (.mk (ih hok))
  · exact fun x t e hok => .varInit ⟨x, t⟩ (print_derives hG e (hok e rfl))
  · exact fun x t _ => .var ⟨x, t⟩
  · exact fun xs e hok => .assign (ids_commas hok.1) (print_derives hG e hok.2)
  · exact fun d xs hok => .havoc d (ids_commas hok)
  · exact fun d e hok => .expr (.assert d) (print_derives hG e hok)
  · exact fun d e hok => .expr (.assume d) (print_derives hG e hok)
  · exact fun d e hok => .expr (.compare d) (print_derives hG e hok)
  · exact fun d _ => .negate d
  · exact fun d _ => .validate d
  · exact fun e hok => .expr .tick (print_derives hG e hok)
  · exact fun e hok => .expr .weigh (print_derives hG e hok)
  · exact fun _ _ iha ihb hok => .choice .cap (.mk (iha hok.1)) (.mk (ihb hok.2))
  · exact fun _ _ iha ihb hok => .choice .cup (.mk (iha hok.1)) (.mk (ihb hok.2))
  · exact fun _ _ iha ihb hok => .choice .plus (.mk (iha hok.1)) (.mk (ihb hok.2))
  · exact fun c _ _ iha ihb hok => .ite (print_derives hG c hok.1) (.mk (iha hok.2.1)) (.mk (ihb hok.2.2))
  · exact fun c _ iha hok => .while (print_derives hG c hok.1) (.mk (iha hok.2))
  · intro s ts f as _ ih hok
    have := print_args hG as hok.1
    rw [repL_map] at this
    exact .annot f (.given this) (ih hok.2)
  · exact fun l _ => .label l
  · exact fun _ => .nil
  · intro s ts _ ih hok
    have := Sts.cons (ih hok.1) .nil
    rwa [List.append_nil] at this
  · exact fun _ _ ih ihs hok => .cons (ih hok.1) (ihs hok.2)
  · exact fun _ _ ih ihs hok => .semi (ih hok.1) (ihs hok.2)

theorem params_commas (vs : List Var) : Params (ppParams vs) vs := by
  induction vs with
  | nil => exact .nil
  | cons v vs ih =>
    cases vs with
    | nil => exact .one v
    | cons w ws => exact .cons v ih

theorem print_specs {G : Prec} (hG : G.Ok) (ss : List RSpec) (h : ∀ s ∈ ss, PrintOk (RSpec.ex s)) : Specs G (ss.flatMap ppSpec) (ss.map (mapSpec rep)) := by
  induction ss with
  | nil => exact .nil
  | cons s ss ih =>
    have ih := ih fun x hx => h x (.tail _ hx)
    have hs := print_derives hG (RSpec.ex s) (h s (.head _))
    cases s with
    | requires e => exact .pre hs ih
    | ensures e => exact .post hs ih

theorem print_items {G : Prec} (hG : G.Ok) (is : List DomItem) (h : ∀ i ∈ is, ∃ x e, i = .ax x e ∧ PrintOk e) :
    Items G (is.flatMap ppItem) (is.map (mapI rep)) := by
  induction is with
  | nil => exact .nil
  | cons i is ih =>
    have ih := ih fun x hx => h x (.tail _ hx)
    obtain ⟨x, e, rfl, he⟩ := h i (.head _)
    exact .ax x (print_derives hG e he) ih

/-- Units that can be printed. The spans of parameters are those of the names. -/
def OkU : RUnit → Prop
  | .proc p => (∀ v ∈ p.proc.inputs, v = param v.var) ∧ (∀ s ∈ p.proc.spec, PrintOk (RSpec.ex s)) ∧ ∀ B, p.proc.body = some B → OkB B
  | .domain _ is => ∀ i ∈ is, ∃ x e, i = .ax x e ∧ PrintOk e
  | .raw ss => OkB ss

theorem print_unit {G : Prec} (hG : G.Ok) {u : RUnit} {ts : List Tok} (h : PrU u ts) (hok : OkU u) (hr : ∀ ss, u ≠ .raw ss) :
    De G ts (noCalculus (mapU rep u)) := by
  have hins : ∀ p : RProc, (∀ v ∈ p.inputs, v = param v.var) → (p.inputs.map Param.var).map param = p.inputs := by
    intro p hp
    rw [List.map_map]
    conv_rhs => rw [← List.map_id p.inputs]
    exact List.map_congr_left fun v hv => (hp v hv).symm
  cases h with
  | @procDecl p c hb =>
    obtain ⟨h1, h2, -⟩ := hok
    have := De.proc (G := G) p.dir p.name .absent (params_commas (p.inputs.map Param.var)) (params_commas p.outputs) (print_specs hG p.spec h2) .absent
    rw [hins p h1, List.append_nil] at this
    simpa only [mapU, noCalculus, hb, List.nil_append, Option.map_none] using this
  | @proc p B ts c hb hB =>
    obtain ⟨h1, h2, h3⟩ := hok
    have := De.proc (G := G) p.dir p.name .absent (params_commas (p.inputs.map Param.var)) (params_commas p.outputs) (print_specs hG p.spec h2)
      (.given (.mk (print_stmts hG hB (h3 B hb))))
    rw [hins p h1] at this
    simpa only [mapU, noCalculus, hb, List.nil_append, Option.map_some] using this
  | domain x is => exact .domain x (print_items hG is hok)
  | raw h => exact (hr _ rfl).elim

/-- Printed declarations are parsed. -/
theorem print_decls {G : Prec} (hG : G.Ok) {us : List RUnit} {ts : List Tok} (h : PrF us ts) (hok : ∀ u ∈ us, OkU u ∧ ∀ ss, u ≠ .raw ss) :
    Des G ts (us.map fun u => noCalculus (mapU rep u)) := by
  induction h with
  | nil => exact .nil
  | cons h _ ih =>
    obtain ⟨h1, h2⟩ := hok _ (.head _)
    exact .cons (print_unit hG h h1 h2) (ih fun x hx => hok x (.tail _ hx))

end Parse
end Caesar
