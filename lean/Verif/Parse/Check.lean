import Verif.Parse.Grammar

/-!
# The check for changed precedences

Models `src/front/parser/precedence_update/mod.rs` and `parse_by_mode` (`src/front/parser/mod.rs:204-221`). The messages of errors are left out.
-/

namespace Caesar
namespace Parse

open Front

/-- `is_associative_binop` (`src/front/parser/precedence_update/mod.rs:499-509`). -/
def isAssoc : RBin → Bool
  | .add | .mul | .and | .or | .inf | .sup => true
  | _ => false

/-- `collect_associative_terms` (`src/front/parser/precedence_update/mod.rs:489-497`). -/
def terms (o : RBin) : RExpr → List RExpr
  | .bin t o' a b => if o' = o then terms o a ++ terms o b else [.bin t o' a b]
  | e => [e]

/-- The pieces that `write_expr_fingerprint` writes. The code writes them into one string. Names have no brackets, semicolons or commas, so the string
can be cut into pieces again. -/
inductive Piece where
  | var | call | ite | assoc | bin | un | cast | quant | subst | lit
  | name (s : String) | op (o : RBin) | uop (o : RUn) | qop (o : QOp) | value (l : RLit) | shadow (s : String) | fresh (s : String)
  | semi | comma | close | open | lb | rb | lc | rc

/-- The pieces for a quantified variable (`src/front/parser/precedence_update/mod.rs:453-464`). The type is left out. -/
def fpVar (v : QVar) : Piece := if v.fresh then .fresh v.var.id.name else .shadow v.var.id.name

/-- A semicolon follows the terms of a chain of associative operators. -/
def fpEnd (chain : Option RBin) (ps : List Piece) : List Piece := if chain.isSome then ps ++ [.semi] else ps

mutual

/-- `write_expr_fingerprint` (`src/front/parser/precedence_update/mod.rs:402-487`), when `chain` is `none`. With `some o` this is what the loop over the
terms of a chain of `o` writes (lines 423-432), see `fp_assoc`. -/
def fpIn (chain : Option RBin) : RExpr → List Piece
  | .var _ x => fpEnd chain [.var, .name x.name, .close]
  | .call _ f args => fpEnd chain ([.call, .name f.name, .close, .lb] ++ fpL args ++ [.rb])
  | .ite _ c a b => fpEnd chain ([.ite] ++ fpIn none c ++ [.comma] ++ fpIn none a ++ [.comma] ++ fpIn none b ++ [.close])
  | .bin _ o a b =>
    if chain = some o then fpIn chain a ++ fpIn chain b
    else if isAssoc o then fpEnd chain ([.assoc, .op o, .lb] ++ (fpIn (some o) a ++ fpIn (some o) b) ++ [.rb])
    else fpEnd chain ([.bin, .op o, .open] ++ fpIn none a ++ [.comma] ++ fpIn none b ++ [.close])
  | .un _ o a => fpEnd chain ([.un, .uop o, .open] ++ fpIn none a ++ [.close])
  | .cast _ a => fpEnd chain ([.cast] ++ fpIn none a ++ [.close])
  | .quant _ o vs trs a =>
    fpEnd chain ([.quant, .qop o, .lb] ++ (vs.map fpVar ++ ([.rb, .lc] ++ fpLL trs ++ [.rc] ++ fpIn none a)))
  | .subst _ x v a => fpEnd chain ([.subst, .name x.name, .open] ++ fpIn none v ++ [.comma] ++ fpIn none a ++ [.close])
  | .lit _ l => fpEnd chain [.lit, .value l, .close]

/-- The loops over arguments and terms of triggers (lines 409-412,469-472). -/
def fpL : List RExpr → List Piece
  | [] => []
  | e :: es => fpIn none e ++ [.semi] ++ fpL es

/-- The loop over triggers (lines 467-474). -/
def fpLL : List (List RExpr) → List Piece
  | [] => []
  | es :: ess => [.lb] ++ fpL es ++ [.rb] ++ fpLL ess

end

/-- `expr_fingerprint` (`src/front/parser/precedence_update/mod.rs:396-400`). -/
def fp (e : RExpr) : List Piece := fpIn none e

deriving instance DecidableEq for RLit
deriving instance DecidableEq for Piece

/-! ## The expressions of a file -/

mutual

/-- `collect_stmt_exprs` (`src/front/parser/precedence_update/mod.rs:251-296`). -/
def exprsS : RStmt → List RExpr
  | .seq ss => exprsB ss
  | .var _ _ e => e.toList
  | .assign _ e | .assert _ e | .assume _ e | .compare _ e | .tick e | .weigh e => [e]
  | .negate _ | .validate _ | .havoc _ _ | .label _ => []
  | .demonic a b | .angelic a b | .additive a b => exprsB a ++ exprsB b
  | .ite c a b => c :: (exprsB a ++ exprsB b)
  | .while c a => c :: exprsB a
  | .annot _ as s => as ++ exprsS s

/-- `collect_block_exprs` (`src/front/parser/precedence_update/mod.rs:245-249`). -/
def exprsB : List RStmt → List RExpr
  | [] => []
  | s :: ss => exprsS s ++ exprsB ss

end

/-- The expression of a specification. -/
def RSpec.ex : RSpec → RExpr
  | .requires e | .ensures e => e

/-- The expressions of the items of a domain (`src/front/parser/precedence_update/mod.rs:213-228`). -/
def exprsI : DomItem → List RExpr
  | .func _ _ _ b => b.toList
  | .ax _ e => [e]

/-- `collect_decl_exprs` (`src/front/parser/precedence_update/mod.rs:192-243`), and `collect_block_exprs` for raw files. -/
def exprsU : RUnit → List RExpr
  | .proc p => p.proc.spec.map RSpec.ex ++ exprsB (p.proc.body.getD [])
  | .domain _ is => is.flatMap exprsI
  | .raw ss => exprsB ss

/-- `collect_decls_exprs` (`src/front/parser/precedence_update/mod.rs:186-190`). -/
def exprsF (us : List RUnit) : List RExpr := us.flatMap exprsU

/-- The result of parsing: a tree, the error `ChangedPrecedence`, another error of the parser, or the failure of the assertion at the end of
`first_expr_mismatch`. -/
inductive Outcome (T : Type) where
  | ok (t : T)
  | changed
  | syntaxError
  | panic

/-- `first_expr_mismatch` (`src/front/parser/precedence_update/mod.rs:163-184`): `none` for the failed assertion, and otherwise whether there is
a mismatch. -/
def mismatch (new old : List RExpr) : Option Bool :=
  if (new.zip old).any (fun p => fp p.1 ≠ fp p.2) then some true
  else if new.length = old.length then some false
  else none

/-- `ParserMode` (`src/front/parser/mod.rs:26-31`). -/
inductive ParserMode where
  | new | old | both
  deriving DecidableEq

/-- `parse_by_mode` (`src/front/parser/mod.rs:204-221`) with the results of both parsers, and `decls_mismatch`, `block_mismatch`
(`src/front/parser/precedence_update/mod.rs:77-95`): there is no check if the old parser fails. `exprs` collects the expressions. -/
def parseByMode {T : Type} (exprs : T → List RExpr) (mode : ParserMode) (new old : Option T) : Outcome T :=
  match mode with
  | .new => match new with
    | some t => .ok t
    | none => .syntaxError
  | .old => match old with
    | some t => .ok t
    | none => .syntaxError
  | .both =>
    match new with
    | none => .syntaxError
    | some t =>
      match old with
      | none => .ok t
      | some t' =>
        match mismatch (exprs t) (exprs t') with
        | none => .panic
        | some true => .changed
        | some false => .ok t

end Parse
end Caesar
