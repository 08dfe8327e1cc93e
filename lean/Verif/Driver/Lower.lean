import Verif.Vcgen
import Verif.Opt.RemoveParens
import Verif.Opt.Boolify
import Verif.Opt.Relational
import Verif.Opt.Unfolder
import Verif.Props.C06

/-!
# The pipeline from HeyVL core statements to the Boolean verification condition

Models `src/driver/core_verify.rs` (`CoreVerifyTask::vcgen`) and `src/driver/quant_proof.rs` (`lower_quant_prove_task`).
-/

namespace Caesar

/-- The options which influence the pipeline (`src/driver/commands/options.rs`, `OptimizationOptions`). -/
structure LowerOptions where
  strict : Bool := false
  noQelim : Bool := false
  noBoolify : Bool := false
  optRel : Bool := false

/-- `top_lit_in_lattice` for `EUReal` (`src/driver/core_verify.rs:188-201`). -/
def terminal : Dir → Expr .eureal
  | .down => .topLit .eureal rfl
  | .up => .un (.non rfl) (.topLit .eureal rfl)

/-- `CoreVerifyTask::vcgen` (`src/driver/core_verify.rs:160-186`) without explanations. -/
def coreVc (d : Dir) (S : Stmt) : Except VcError (Expr .eureal) := vcgen S (terminal d)

/-- `QuantVcProveTask::into_bool_vc` (`src/driver/quant_proof.rs:137-157`). -/
def intoBoolVc (d : Dir) (e : Expr .eureal) : Expr .bool :=
  match d with
  | .down => .rel .eq (.topLit .eureal rfl) e
  | .up => .rel .eq (.topLit .eureal rfl) (.un (.not rfl) e)

/-- `BoolVcProveTask::remove_parens` under its condition (`src/driver/quant_proof.rs:56-58`). -/
def parensStep (opts : LowerOptions) (b : Expr .bool) : Expr .bool := if !opts.noBoolify || opts.optRel then b.removeParens else b

/-- `BoolVcProveTask::opt_boolify` under its condition (`src/driver/quant_proof.rs:60-62`). -/
def boolifyStep (opts : LowerOptions) (n : Nat) (b : Expr .bool) : Option (Expr .bool) := if opts.noBoolify then some b else boolify n b

/-- `BoolVcProveTask::opt_relational` under its condition (`src/driver/quant_proof.rs:64-66`). -/
def relationalStep (opts : LowerOptions) (b : Expr .bool) : Option (Expr .bool) := if opts.optRel then b.relational else some b

/-- Steps 4.1 to 4.3 of `lower_quant_prove_task` (`src/driver/quant_proof.rs:54-66`): `n` bounds the recursion depth of `Boolify`
(see `boolify`), `none` is a panic (or a bound which is too small). `egraph_simplify` (lines 50-52, 170-172) takes a shared reference and only logs, so it
is not part of the model. -/
def optBool (opts : LowerOptions) (n : Nat) (b : Expr .bool) : Option (Expr .bool) :=
  (boolifyStep opts n (parensStep opts b)).bind (relationalStep opts)

/-- `QuantVcProveTask::unfold` (`src/driver/quant_proof.rs:84-110`). -/
def unfoldStep (o : Oracle) (span : Nat) (opts : LowerOptions) (e : Expr .eureal) : PM UState (Expr .eureal) :=
  if opts.strict then liftTcx (applySubstTop span e) else unfoldTop o span e

/-- `QuantVcProveTask::qelim` under its condition (`src/driver/quant_proof.rs:38-40, 112-119`). -/
def qelimStep (span span' : Nat) (opts : LowerOptions) (d : Dir) (e : Expr .eureal) : PM UState (Expr .eureal) :=
  if opts.noQelim then pure e else liftTcx (qelimPass span span' e d)

/-- `lower_quant_prove_task` (`src/driver/quant_proof.rs:27-72`) without resource limits. The solver of the unfolder is `o`; the spans are those of
the new identifiers. Statistics and printing are not modelled. -/
def lowerQuant (o : Oracle) (span span' span'' : Nat) (opts : LowerOptions) (n : Nat) (d : Dir) (e : Expr .eureal) : PM UState (Expr .bool) := do
  let e ← unfoldStep o span opts e
  let e ← qelimStep span' span'' opts d e
  (fun s => (optBool opts n (intoBoolVc d e)).map (·, s) : PM UState (Expr .bool))

end Caesar
