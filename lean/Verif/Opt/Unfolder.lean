import Verif.Subst

/-!
# Model of the unfolder

Models `src/opt/unfolder.rs`: substitutions are eliminated, and parts of the expression whose path condition is reported
unsatisfiable by the solver are cut off.
-/

namespace Caesar

/-- One assumption of the prover: the condition together with the numbers of the SMT constants that stand for its variables. The translation of
expressions (`TranslateExprs`, `src/smt/translate_exprs.rs`) is not applied here. -/
structure Assumption where
  cond : Expr .bool
  names : Var → Nat

/-- State of the prover and of the local variables of the translator (`src/opt/unfolder.rs:43-56`), represented by the call stack: `push` and `pop`
of the code restore the value of the caller. Number `n` of a variable is the SMT constant introduced for it below the `n`-th of the enclosing
quantifiers. Variables which first occur below a quantifier get new constants for each quantifier in the code (`locals`), in the model they keep
number `0`: the queries of the model imply those of the code. Invariants of the sorts hold by typing. -/
structure Path where
  conds : List Assumption := []
  names : Var → Nat := fun _ => 0
  depth : Nat := 0

/-- Answers of the solver: `ask n q` is `true` if the answer to the `n`-th query `q` is `Unsat`, and `false` for `Sat` and `Unknown`. (`src/opt/unfolder.rs:101`) -/
abbrev Oracle := Nat → List Assumption → Bool

/-- `prover.add_assumption(&self.translate.t_bool(expr))` (`src/opt/unfolder.rs:84`, `96`). -/
def Path.add (p : Path) (c : Expr .bool) : Path := { p with conds := ⟨c, p.names⟩ :: p.conds }

/-- `self.translate.push()` and `self.translate.fresh(..)` for the quantified variables (`src/opt/unfolder.rs:245-257`). -/
def Path.enter (p : Path) (vs : List Var) : Path :=
  { conds := p.conds, names := fun v => if v ∈ vs then p.depth + 1 else p.names v, depth := p.depth + 1 }

/-- The mutable state: the symbol table and the number of queries so far. (`src/opt/unfolder.rs:44-56`) -/
abbrev UState := TyCtx × Nat

/-- Operations on the symbol table only. -/
def liftTcx {α : Type} (m : PM TyCtx α) : PM UState α := fun s => (m s.1).map fun r => (r.1, (r.2, s.2))

/-- `check_sat() == SatResult::Unsat` (`src/opt/unfolder.rs:101`). -/
def askUnsat (o : Oracle) (p : Path) : PM UState Bool := fun s => some (o s.2 p.conds, (s.1, s.2 + 1))

/-- `Unfolder::with_sat` (`src/opt/unfolder.rs:83-108`). -/
def withSat (o : Oracle) (p : Path) (c : Expr .bool) {α : Type} (k : Path → PM UState α) : PM UState (Option α) := do
  if ← askUnsat o (p.add c) then return none
  else return some (← k (p.add c))

/-- `negate_expr` (`src/opt/unfolder.rs:269-275`). -/
def negateExpr (c : Expr .bool) : Expr .bool := .un (.not rfl) c

/-- `Unfolder::with_nonbot` (`src/opt/unfolder.rs:113-127`). -/
def withNonbot (o : Oracle) (p : Path) {α : Type} (k : Path → PM UState α) : {t : Ty} → Expr t → PM UState (Option α)
  | _, .embed c => withSat o p c k
  | _, .iverson c => withSat o p c k
  | _, e => do if e.isBotLit then return none else return some (← k p)

/-- `Unfolder::with_nontop` (`src/opt/unfolder.rs:132-145`). -/
def withNontop (o : Oracle) (p : Path) {α : Type} (k : Path → PM UState α) : {t : Ty} → Expr t → PM UState (Option α)
  | _, .embed c => withSat o p (negateExpr c) k
  | _, e => do if e.isTopLit then return none else return some (← k p)

/-- `builder.bot_lit(&ty)` for the types of the guard in `src/opt/unfolder.rs:185` (`src/ast/expr.rs:595-611`). -/
def Ty.mulBot : (t : Ty) → Option (Expr t)
  | .bool => some (.boolLit false)
  | .ureal => some (.cast .uintUReal (.uintLit 0))
  | .eureal => some (.cast .uintEUReal (.uintLit 0))
  | _ => none

/-- Which knowledge about the left operand makes the right operand irrelevant, and the value of the expression in this case. -/
inductive Pruning (t : Ty) where
  /-- no special treatment -/
  | none
  /-- the right operand matters only if the left operand is not bottom -/
  | nonbot (l : Expr t)
  /-- the right operand matters only if the left operand is not top -/
  | nontop (l : Expr t)

/-- The cases of binary operators in `src/opt/unfolder.rs:184-235`. -/
def BinOp.pruning : {t : Ty} → BinOp t → Pruning t
  | t, .mul _ => match t.mulBot with
    | some l => .nonbot l
    | none => .none
  | t, .impl h => .nonbot (.topLit t h)
  | t, .compare h => .nonbot (.topLit t h)
  | t, .coimpl h => .nontop (.botLit t h)
  | t, .cocompare h => .nontop (.botLit t h)
  | _, _ => .none

/-- `Unfolder::visit_expr` (`src/opt/unfolder.rs:151-266`) without resource limits. `span` is the span of the renamed variables. -/
def Expr.unfold (o : Oracle) (span : Nat) : {t : Ty} → Expr t → Path → SubstFrame → PM UState (Expr t)
  | t, .var x, _, fr =>
      match fr.substs ⟨x, t⟩ with
      | some e => pure e
      | none => pure (.var x)
  | _, .lit l, _, _ => pure (.lit l)
  | _, .call f args, p, fr => do
      let args' ← traverseFin f.args.length fun i => (args i).unfold o span p fr
      return .call f args'
  | _, .ite c a b, p, fr => do
      let c ← c.unfold o span p fr
      match ← withSat o p c fun p => a.unfold o span p fr with
      | some a =>
        match ← withSat o p (negateExpr c) fun p => b.unfold o span p fr with
        | some b => return .ite c a b
        | none => return a
      | none => b.unfold o span p fr
  | _, .bin op a b, p, fr => do
      let a ← a.unfold o span p fr
      match op.pruning with
      | .none => return .bin op a (← b.unfold o span p fr)
      | .nonbot l =>
        match ← withNonbot o p (fun p => b.unfold o span p fr) a with
        | some b => return .bin op a b
        | none => return l
      | .nontop l =>
        match ← withNontop o p (fun p => b.unfold o span p fr) a with
        | some b => return .bin op a b
        | none => return l
  | _, .rel op a b, p, fr => do
      let a ← a.unfold o span p fr
      let b ← b.unfold o span p fr
      return .rel op a b
  | _, .un op a, p, fr => do return .un op (← a.unfold o span p fr)
  | _, .embed a, p, fr => do return .embed (← a.unfold o span p fr)
  | _, .iverson a, p, fr => do return .iverson (← a.unfold o span p fr)
  | _, .cast c a, p, fr => do return .cast c (← a.unfold o span p fr)
  | _, .quant op h vs a, p, fr => do
      let (vs', fr') ← liftTcx (pushQuant span vs fr)
      let a ← a.unfold o span (p.enter (vs'.map QVar.var)) fr'
      return .quant op h vs' a
  | _, .subst x e a, p, fr => do
      let e ← e.unfold o span p fr
      let fr' ← liftTcx (fun c => (pushSubst fr x e).map (·, c))
      a.unfold o span p fr'

/-- Unfolding of a verification condition (`src/driver/quant_proof.rs:90-104`). -/
def unfoldTop (o : Oracle) (span : Nat) {t : Ty} (e : Expr t) : PM UState (Expr t) := e.unfold o span {} .empty

end Caesar
