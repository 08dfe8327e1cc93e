import Verif.Mc.Jani
import Verif.Vcgen
import Verif.Procs.ProcVerify

/-!
# Translation of procedures to JANI

Models `src/mc/mod.rs`, `src/mc/opsem.rs` and `src/mc/specs.rs`. `none` is an error (`JaniConversionError`) or a panic.
Only the property `reward` is modelled.
-/

namespace Caesar.Mc

/-- Conversion of a literal to `u64` (`src/mc/mod.rs:462-464`). -/
def u64 (n : ℕ) : Option JExpr := if n < 2 ^ 64 then some (.num n) else none

/-- A fraction; the conversion of numerator and denominator panics on large numbers (`src/mc/mod.rs:466-470`). -/
def fracExpr (q : ℚ≥0) : Option JExpr := do
  let a ← u64 q.num
  let b ← u64 q.den
  return .bin .div a b

/-- `ExprTranslator::translate` on literals (`src/mc/mod.rs:461-472`). -/
def translateLit : {t : Ty} → Lit t → Option JExpr
  | _, .bool b => some (.bool b)
  | _, .uint n => u64 n
  | _, .ufrac q => fracExpr q
  | _, .rfrac q => fracExpr q
  | _, .efrac q => fracExpr q
  | _, .infty => none

/-- `ExprTranslator::translate_sub` (`src/mc/mod.rs:476-506`). -/
def translateSub : Ty → JExpr → JExpr → Option JExpr
  | .uint, l, r | .ureal, l, r | .eureal, l, r => some (.ite (.bin .ge l r) (.bin .minus l r) (.num 0))
  | .int, l, r | .real, l, r => some (.bin .minus l r)
  | _, _, _ => none

/-- The binary operators (`src/mc/mod.rs:406-438`). -/
def translateBin : {t : Ty} → BinOp t → JExpr → JExpr → Option JExpr
  | t, .sub _, l, r => translateSub t l r
  | _, .add _, l, r => some (.bin .plus l r)
  | _, .mul _, l, r => some (.bin .times l r)
  | _, .div _, l, r => some (.bin .div l r)
  | _, .mod _, l, r => some (.bin .mod l r)
  | _, .and, l, r => some (.bin .and l r)
  | _, .or, l, r => some (.bin .or l r)
  | _, .inf _, l, r => some (.bin .min l r)
  | _, .sup _, l, r => some (.bin .max l r)
  | _, .impl _, _, _ => none
  | _, .coimpl _, _, _ => none
  | _, .compare _, _, _ => none
  | _, .cocompare _, _, _ => none

/-- The comparisons (`src/mc/mod.rs:406-438`). -/
def translateRel : {t : Ty} → RelOp t → JOp
  | _, .eq => .eq
  | _, .ne => .ne
  | _, .lt _ => .lt
  | _, .le _ => .le
  | _, .ge _ => .ge
  | _, .gt _ => .gt

/-- `FuncDecl` (`src/ast/decl.rs`): the symbol, the names of its inputs and the definition. -/
structure FnDecl where
  out : Ty
  func : Func out
  ins : Fin func.args.length → Ident
  body : Option (Expr out)

/-- The functions in the `TyCtx` (`src/tyctx.rs`). -/
class Fns where
  decls : List FnDecl

/-- `TyCtx::get` for a function (`src/mc/mod.rs:515`). -/
def findFn [Fns] (x : Ident) : Option FnDecl := Fns.decls.find? fun d => d.func.name = x

/-- Whether it is a function with a body (`src/mc/mod.rs:515-520`). -/
def hasBody [Fns] (x : Ident) : Bool :=
  match findFn x with
  | some d => d.body.isSome
  | none => false

/-- `collect` of the results for the arguments (`src/mc/mod.rs:526-529`). -/
def collectArgs {n : ℕ} (g : Fin n → Option JExpr) : Option (Fin n → JExpr) :=
  if h : ∀ i, (g i).isSome = true then some fun i => (g i).get (h i) else none

variable [Fns]

/-- `ExprTranslator::translate` (`src/mc/mod.rs:395-474`) and `translate_call` (`src/mc/mod.rs:508-538`). Casts are dropped; `todo!()` on substitutions. -/
def translate : {t : Ty} → Expr t → Option JExpr
  | _, .var x => some (.id x.name)
  | _, .lit l => translateLit l
  | _, .call f args => if hasBody f.name then (collectArgs fun i => translate (args i)).map (.call f.name.name) else none
  | _, .ite c a b => do
    let c ← translate c
    let a ← translate a
    let b ← translate b
    return .ite c a b
  | _, .bin op a b => do
    let a ← translate a
    let b ← translate b
    translateBin op a b
  | _, .rel op a b => do
    let a ← translate a
    let b ← translate b
    return .bin (translateRel op) a b
  | t, .un (.not _) a => if t = .bool then (translate a).map .not else none
  | _, .un (.non _) _ => none
  | _, .un .parens a => translate a
  | _, .embed _ => none
  | _, .iverson a => do
    let a ← translate a
    return .ite a (.num 1) (.num 0)
  | _, .cast _ a => translate a
  | _, .quant _ _ _ _ => none
  | _, .subst _ _ _ => none

/-- `extract_embed` (`src/mc/mod.rs:541-578`). -/
def extractEmbed : Expr .eureal → Option (Expr .bool)
  | .embed a => some a
  | .un (.not _) (.embed a) => some (.un (.not rfl) a)
  | e => if e.isBotLit then some (Expr.boolLit false) else if e.isTopLit then some (Expr.boolLit true) else none

/-- `is_constant` (`src/mc/mod.rs:585-587`). -/
def isConstant : {t : Ty} → Expr t → Bool
  | _, .lit _ => true
  | _, _ => false

/-- The part of `OpAutomaton` (`src/mc/opsem.rs:25-33`) which the translation of statements changes. The locations made by
`next_stmt_location` (`src/mc/opsem.rs:50-54`) are numbered, and have no transient values. -/
structure Build where
  nlocs : ℕ
  edges : List JEdge
  nondet : Bool

/-- A new location (`src/mc/opsem.rs:50-54`), together with the name of it. -/
def Build.newLoc (b : Build) : Loc × Build := (.l b.nlocs, { b with nlocs := b.nlocs + 1 })

/-- `automaton.edges.push`. -/
def Build.push (b : Build) (e : JEdge) : Build := { b with edges := b.edges ++ [e] }

/-- `automaton.has_nondet = true`. -/
def Build.setNondet (b : Build) : Build := { b with nondet := true }

/-- `translate_assign` with a pure right-hand side (`src/mc/opsem.rs:234-300`). -/
def translateAssign (lhs : String) {t : Ty} (rhs : Expr t) (next : Loc) (b : Build) : Option (Loc × Build) := do
  let (start, b) := b.newLoc
  let e ← translate rhs
  return (start, b.push ⟨start, none, [⟨next, none, [(lhs, e)]⟩]⟩)

/-- `translate_assign` with a distribution (`src/mc/opsem.rs:234-300`). -/
def translateSample (lhs : String) {t : Ty} (d : DistCall t) (next : Loc) (b : Build) : Option (Loc × Build) := do
  let (start, b) := b.newLoc
  match d.apply with
  | .error _ => none
  | .ok dist =>
    let dests ← dist.mapM fun (p, v) => do
      let p ← translate p
      let v ← translate v
      return (⟨next, some p, [(lhs, v)]⟩ : JDest)
    return (start, b.push ⟨start, none, dests⟩)

/-- The condition under which execution continues (`src/mc/opsem.rs:125-131,318-324`). -/
def contCond (d : Dir) (c : JExpr) : JExpr :=
  match d with
  | .down => c
  | .up => .not c

/-- `translate_bool_assert` (`src/mc/opsem.rs:302-336`). -/
def translateBoolAssert (d : Dir) (c : Expr .bool) (next : Loc) (b : Build) : Option (Loc × Build) := do
  let c ← translate c
  let (start, b) := b.newLoc
  let b := b.push (.fromToIf start next (contCond d c))
  return (start, b.push (.fromToIf start .err (.not (contCond d c))))

/-- `translate_quant_assert` (`src/mc/opsem.rs:343-365`). -/
def translateQuantAssert (e : Expr .eureal) (next : Loc) (b : Build) : Option (Loc × Build) := do
  let (start, b) := b.newLoc
  let b := b.setNondet
  let b := b.push (.fromTo start next)
  let (ret, b) ← translateAssign rewardVar e .err b
  return (start, b.push (.fromTo start ret))

/-- `translate_miracle` (`src/mc/opsem.rs:369-396`). -/
def translateMiracle (d : Dir) (b : Build) : Loc × Build :=
  let (start, b) := b.newLoc
  (start, b.push ⟨start, none, [⟨start, none, match d with
    | .down => [(rewardVar, .num 1)]
    | .up => []⟩]⟩)

/-- The arm for `Assume` of `translate_stmt` (`src/mc/opsem.rs:122-145`). -/
def translateAssume (d : Dir) (e : Expr .eureal) (next : Loc) (b : Build) : Option (Loc × Build) := do
  let c ← extractEmbed e
  let c ← translate c
  let (start, b) := b.newLoc
  let b := b.push (.fromToIf start next (contCond d c))
  let (mir, b) := translateMiracle d b
  return (start, b.push (.fromToIf start mir (.not (contCond d c))))

/-- The binary choices (`src/mc/opsem.rs:159-180`). -/
def translateChoice (l r : Loc → Build → Option (Loc × Build)) (next : Loc) (b : Build) : Option (Loc × Build) := do
  let b := b.setNondet
  let (start, b) := b.newLoc
  let (ls, b) ← l next b
  let b := b.push (.fromTo start ls)
  let (rs, b) ← r next b
  return (start, b.push (.fromTo start rs))

/-- `translate_stmt`, `translate_stmts` and `translate_block` (`src/mc/opsem.rs:84-232`), in a procedure of direction `dir`. -/
def translateStmt (dir : Dir) : Stmt → Loc → Build → Option (Loc × Build)
  | .skip, next, b => some (next, b)
  | .seq s t, next, b => do
    let (mid, b) ← translateStmt dir t next b
    translateStmt dir s mid b
  | .varDecl _, _, _ => none
  | .varInit x e, next, b => if isConstant e then some (next, b) else translateAssign x.id.name e next b
  | .assign x e, next, b => translateAssign x.id.name e next b
  | .sample _ x d, next, b => translateSample x.name d next b
  | .call _ _ _ _, _, _ => none
  | .havoc _ _, _, _ => none
  | .assert d e, next, b =>
    if d ≠ dir then none
    else match extractEmbed e with
      | some c => translateBoolAssert d c next b
      | none => translateQuantAssert e next b
  | .assume d e, next, b => translateAssume d e next b
  | .compare _ _, _, _ => none
  | .negate _, _, _ => none
  | .validate _, _, _ => none
  | .tick e, next, b => translateAssign rewardVar e next b
  | .weigh _, _, _ => none
  | .demonic l r, next, b =>
    if dir = .down then translateChoice (translateStmt dir l) (translateStmt dir r) next b else none
  | .angelic l r, next, b =>
    if dir = .up then translateChoice (translateStmt dir l) (translateStmt dir r) next b else none
  | .additive _ _, _, _ => none
  | .ite c l r, next, b => do
    let (start, b) := b.newLoc
    let c ← translate c
    let (ls, b) ← translateStmt dir l next b
    let b := b.push (.fromToIf start ls c)
    let (rs, b) ← translateStmt dir r next b
    return (start, b.push (.fromToIf start rs (.not c)))
  | .while c body, next, b => do
    let (start, b) := b.newLoc
    let c ← translate c
    let (bs, b) ← translateStmt dir body start b
    let b := b.push (.fromToIf start bs c)
    return (start, b.push (.fromToIf start next (.not c)))
  | .annot _ s, next, b => translateStmt dir s next b
  | .label _, next, b => some (next, b)

/-- `through_annotation` (`src/mc/specs.rs:319-324`). -/
def throughAnnotation : Stmt → Stmt
  | .annot _ s => s
  | s => s

/-- `extract_preconditions` (`src/mc/specs.rs:240-272`) without the final conjunction: the conditions and the remaining statements. -/
def extractPre (dir : Dir) (skipQuant : Bool) : List Stmt → Option (List JExpr × List Stmt)
  | [] => some ([], [])
  | s :: rest =>
    match throughAnnotation s with
    | .assume d e =>
      if d ≠ dir then none
      else match extractEmbed e with
        | some c => do
          let c ← translate c
          let (cs, rest) ← extractPre dir skipQuant rest
          return (contCond dir c :: cs, rest)
        | none => if skipQuant then extractPre dir skipQuant rest else none
    | _ => some ([], s :: rest)

/-- `reduce` with `&`, or `true` (`src/mc/specs.rs:267-271`). -/
def conjunction : List JExpr → JExpr
  | [] => .bool true
  | c :: cs => cs.foldl (.bin .and) c

/-- The loop of `extract_post` (`src/mc/specs.rs:284-299`), on the reversed list of statements. -/
def takePosts (dir : Dir) : List Stmt → Option (List (Expr .eureal) × List Stmt)
  | [] => some ([], [])
  | s :: rest =>
    match throughAnnotation s with
    | .assert d e =>
      if d ≠ dir then none
      else do
        let (es, rest) ← takePosts dir rest
        return (e :: es, rest)
    | _ => some ([], s :: rest)

/-- `is_dir_top_lit` (`src/ast/util.rs:114-119`). -/
def isDirTopLit (d : Dir) (e : Expr .eureal) : Bool :=
  match d with
  | .down => e.isTopLit
  | .up => e.isBotLit

/-- The single post (`src/mc/specs.rs:301-310`). -/
def singlePost (d : Dir) (posts : List (Expr .eureal)) : Expr .eureal :=
  match posts.filter fun e => !isDirTopLit d e with
  | [] => match d with
    | .down => Expr.topLit .eureal rfl
    | .up => Expr.botLit .eureal rfl
  | e :: es => es.foldl (.bin (match d with | .down => .inf rfl | .up => .sup rfl)) e

/-- `extract_post` (`src/mc/specs.rs:278-317`): the reward at the end, and the remaining statements. -/
def extractPost (d : Dir) (stmts : List Stmt) : Option (JExpr × List Stmt) := do
  let (posts, rest) ← takePosts d stmts.reverse
  if (singlePost d posts).isTopLit then none
  else do
    let e ← translate (singlePost d posts)
    return (e, rest.reverse)

/-- `SpecAutomaton::finish` (`src/mc/specs.rs:88-128`). -/
def finish (b : Build) (sinkReward : JExpr) : JAutomaton where
  edges := b.edges ++ [.fromTo .fin .sink, .fromTo .err .sink]
  exit := fun l => if l = .fin then some sinkReward else none

/-- `translate_type` (`src/mc/mod.rs:352-376`): the supported types. -/
def isJaniTy : Ty → Bool
  | .bool | .int | .uint | .real | .ureal => true
  | _ => false

/-- `arbitrarily_choose_initial` (`src/mc/mod.rs:334-350`). -/
def arbitraryInit : Ty → Option JExpr
  | .bool => some (.bool false)
  | .uint | .ureal | .eureal => some (.num 0)
  | _ => none

/-- `VariableDeclaration` (`jani/src/models.rs`): the variable and its initial value. -/
structure JDecl where
  var : Var
  init : Option JExpr

/-- One declaration; an error on unsupported types. -/
def mkDecl (x : Var) (init : Option JExpr) : Option (List JDecl) :=
  if isJaniTy x.ty then some [⟨x, init⟩] else none

/-- `translate_local_decls` (`src/mc/mod.rs:287-332`), on the body of the procedure. -/
def localDecls : Stmt → Option (List JDecl)
  | .seq s t => do return (← localDecls s) ++ (← localDecls t)
  | .varDecl x => mkDecl x none
  | .varInit x e =>
    if isConstant e then do mkDecl x (some (← translate e)) else mkDecl x (arbitraryInit x.ty)
  | .sample true x (t := t) _ => mkDecl ⟨x, t⟩ (arbitraryInit t)
  | .call true lhs _ _ => do return (← lhs.mapM fun x => mkDecl x (arbitraryInit x.ty)).flatten
  | .demonic s t | .angelic s t | .additive s t | .ite _ s t => do return (← localDecls s) ++ (← localDecls t)
  | .while _ s | .annot _ s => localDecls s
  | _ => some []

/-- The outputs (`src/mc/mod.rs:267-281`), with `jani_uninit_outputs` as a parameter. -/
def outputDecls (uninit : Bool) : List Var → Option (List JDecl)
  | [] => some []
  | x :: xs => do
    let d ← mkDecl x (if uninit then none else arbitraryInit x.ty)
    return d ++ (← outputDecls uninit xs)

/-- The inputs, as constants or variables without initial value (`src/mc/mod.rs:246-265`). -/
def inputDecls : List Var → Option (List JDecl)
  | [] => some []
  | x :: xs => do
    let d ← mkDecl x none
    return d ++ (← inputDecls xs)

/-- The statements of a block. -/
def blockStmts : Stmt → List Stmt
  | .skip => []
  | .seq s t => s :: blockStmts t
  | s => [s]

/-- The definition of one function (`src/mc/mod.rs:615-630`). -/
def translateFn (d : FnDecl) : Option JFun :=
  if isJaniTy d.out && (List.ofFn fun i => isJaniTy (d.func.args.get i)).all id then do
    let body ← d.body
    let j ← translate body
    return ⟨d.func.name.name, d.out, List.ofFn fun i => ((d.ins i).name, d.func.args.get i), j⟩
  else none

/-- The function of a name. The code looks up the identifier; functions have different names. -/
def findName (n : String) : Option FnDecl := Fns.decls.find? fun d => d.func.name.name = n

/-- The loop of `translate_fns` (`src/mc/mod.rs:602-640`). Iterations that only remove a function which is done already are skipped. The
order of the worklist, a hash set, is that of the list. The number of iterations is bounded by the first argument; C86 shows that it is
never exhausted. -/
def fnsLoop : ℕ → List String → List String → Option (List JFun)
  | fuel, mentioned, done =>
    match mentioned.find? fun n => n ∉ done with
    | none => some []
    | some n => match fuel with
      | 0 => none
      | fuel + 1 => do
        let d ← findName n
        let f ← translateFn d
        return f :: (← fnsLoop fuel (mentioned ++ f.body.calls) (n :: done))

/-- `translate_fns` (`src/mc/mod.rs:589-643`). -/
def translateFns (mentioned : List String) : Option (List JFun) := fnsLoop Fns.decls.length mentioned []

/-- The functions called on the edges. -/
def JDest.calls (d : JDest) : List String := (match d.prob with | some p => p.calls | none => []) ++ (d.assigns.map fun a => a.2.calls).flatten

/-- The functions called on an edge. -/
def JEdge.calls (e : JEdge) : List String := (match e.guard with | some g => g.calls | none => []) ++ (e.dests.map JDest.calls).flatten

/-- `Model` (`jani/src/models.rs:213-240`): what the meaning depends on. -/
structure JModel where
  decls : List JDecl
  automaton : JAutomaton
  initial : Loc
  restrict : JExpr
  mdp : Bool
  functions : List JFun

/-- The options `jani_skip_quant_pre` and `jani_uninit_outputs` (`src/driver/commands/options.rs`). -/
structure McOptions where
  skipQuantPre : Bool
  uninitOutputs : Bool

/-- `proc_to_model` (`src/mc/mod.rs:133-221`), after `check_calculus_annotation`. The statements are those of
`encode_proc_verify` (`src/procs/proc_verify.rs:28-66`). The functions mentioned (`mentioned_funcs`) are collected from the parts of the
model: all translated expressions are part of it. -/
def procToModel (o : McOptions) (p : Proc) : Option JModel := do
  let body ← p.body
  let stmts := (p.requires.map fun e => wrapSuccess (.assume p.dir e)) ++ blockStmts body ++
    (p.ensures.map fun e => wrapError (.assert p.dir e))
  let (pres, stmts) ← extractPre p.dir o.skipQuantPre stmts
  let (post, stmts) ← extractPost p.dir stmts
  let locals ← localDecls body
  let ins ← inputDecls p.ins
  let outs ← outputDecls o.uninitOutputs p.outputs
  let (start, b) ← translateStmt p.dir (Stmt.block stmts) .fin ⟨0, [], false⟩
  let fns ← translateFns ((pres.map JExpr.calls).flatten ++ post.calls ++ (b.edges.map JEdge.calls).flatten)
  return ⟨locals ++ ins ++ outs, finish b post, start, conjunction pres, b.nondet, fns⟩

end Caesar.Mc
