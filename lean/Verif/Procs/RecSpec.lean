import Verif.Procs.SpecCall
import Verif.ProofRules.Frame

/-!
# Specification: programs of mutually recursive procedures

The meaning of a program in which calls run the bodies: the greatest fixed point for procs (`wlp`), the least fixed
point for coprocs.
-/

open scoped ENNReal NNReal

namespace Caesar

variable [Doms] [Interp]

/-- A meaning for every procedure. -/
abbrev ProcSem := Ident → Exp → Exp

open Classical in
/-- Statements whose calls have the meaning `Γ`. Variables of the callee that are not initialised have arbitrary
values: the worst ones for the bound to be proved. Calls of unknown procedures, or whose left-hand sides do not have
the types of the outputs, do not pass type checking; they get the value `0`. -/
noncomputable def callCtx (k : LoopSem) (procs : ProcTable) (Γ : ProcSem) : SemCtx where
  loop := k
  call lhs f args φ σ :=
    match procs f with
    | none => 0
    | some p =>
      if p.outputs.map Var.ty = lhs.map Var.ty then
        match p.dir with
        | .down => ⨅ τ₀, runCall p (Γ f) lhs args φ σ τ₀
        | .up => ⨆ τ₀, runCall p (Γ f) lhs args φ σ τ₀
      else 0

/-- One unfolding of all procedures: bodies run with calls having the meaning `Γ`; procedures without body have the
meaning `ext`. -/
noncomputable def unfoldProcs (k : LoopSem) (procs : ProcTable) (ext : ProcSem) (Γ : ProcSem) : ProcSem := fun f φ =>
  match procs f with
  | none => ext f φ
  | some p =>
    match p.body with
    | none => ext f φ
    | some B => vcSem (callCtx k procs Γ) B φ

/-- The greatest (for procs) or least (for coprocs) fixed point of unfolding, among the monotone meanings. -/
noncomputable def recSem (d : Dir) (k : LoopSem) (procs : ProcTable) (ext : ProcSem) : ProcSem := fun f φ σ =>
  match d with
  | .down => ⨆ Γ ∈ {Γ : ProcSem | (∀ f, Monotone (Γ f)) ∧ ∀ f φ, Γ f φ ≤ unfoldProcs k procs ext Γ f φ}, Γ f φ σ
  | .up => ⨅ Γ ∈ {Γ : ProcSem | (∀ f, Monotone (Γ f)) ∧ ∀ f φ, unfoldProcs k procs ext Γ f φ ≤ Γ f φ}, Γ f φ σ

/-- Specification: `v` is read somewhere in the statement or in an annotation. -/
def Stmt.ReadsSome (v : Var) : Stmt → Prop
  | .seq a b | .demonic a b | .angelic a b | .additive a b => a.ReadsSome v ∨ b.ReadsSome v
  | .ite c a b => c.Free v ∨ a.ReadsSome v ∨ b.ReadsSome v
  | .while c s => c.Free v ∨ s.ReadsSome v
  | .annot an s => an.Reads v ∨ s.ReadsSome v
  | s => s.Reads v

/-- Specification: the calls in a statement. -/
def Stmt.Calls (lhs : List Var) (f : Ident) (args : List ((t : Ty) × Expr t)) : Stmt → Prop
  | .call _ l g a => l = lhs ∧ g = f ∧ a = args
  | .seq a b | .demonic a b | .angelic a b | .additive a b | .ite _ a b => a.Calls lhs f args ∨ b.Calls lhs f args
  | .while _ s | .annot _ s => s.Calls lhs f args
  | _ => False

end Caesar
