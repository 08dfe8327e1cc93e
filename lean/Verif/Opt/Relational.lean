import Verif.Lattice
import Verif.Tot

/-!
# Model of the relational optimisation

Models `src/opt/relational.rs`.
-/

namespace Caesar
set_option linter.unusedVariables false

theorem Expr.size_pos {t : Ty} (e : Expr t) : 0 < e.size := by
  cases e <;> simp [Expr.size]

/-- `ExprBuilder::frac_lit(0)` (`src/ast/expr.rs:652-659`). -/
def Expr.fracZero : Expr .eureal := .lit (.efrac 0)

/-- A literal which is the top element (`ExprKind::Lit(lit) if lit.node.is_top()`), at a type other than `EUReal`
only possible for `Bool`. The code then compares with the `EUReal` literal `0` resp. `∞`
(`src/opt/relational.rs:88-93,121-125`). If the other operand is Boolean, the comparison is ill-typed and
the SMT translation panics (`t_pair`, `src/smt/translate_exprs.rs`). The model panics (`none`) in that case right away. -/
def Expr.onlyEUReal : {t : Ty} → Expr t → Option (Expr .eureal)
  | .eureal, e => some e
  | _, _ => none

theorem Expr.onlyEUReal_size {t : Ty} {e : Expr t} {e' : Expr .eureal} (h : e.onlyEUReal = some e') :
    e'.size = e.size := by
  cases t <;> simp [onlyEUReal] at h
  rw [h]

mutual

/-- `relational_leq` (`src/opt/relational.rs:53-136`): the match on `upper`. `none` is a panic, see `Expr.onlyEUReal`. -/
def relationalLeq {t : Ty} (ho : t.isOrd = true) (lower upper : Expr t) : Option (Expr .bool) :=
  if upper.isTopLit then some (.boolLit true) else
  match upper with
  | .bin (.inf h) a b => do
      return .bin .and (← relationalLeq ho lower a) (← relationalLeq ho lower b)
  | .bin (.sup h) a b => do
      return .bin .or (← relationalLeq ho lower a) (← relationalLeq ho lower b)
  | .bin (.impl h) a b => do
      return .bin .or (← relationalLeq ho lower b) (← relationalLeq ho a b)
  | .un (.not h) a =>
      if lower.isTopLit then
        match ha : a.onlyEUReal with
        | some a' =>
            have := Expr.onlyEUReal_size ha
            relationalLeq rfl a' .fracZero
        | none => none
      else relationalLower ho lower (.un (.not h) a)
  | upper => relationalLower ho lower upper
termination_by 2 * (lower.size + upper.size) + 1
decreasing_by
  all_goals have h1 := lower.size_pos
  all_goals simp_wf
  all_goals simp only [Expr.size, Expr.fracZero]
  all_goals omega

/-- `relational_leq` (`src/opt/relational.rs:53-136`): the match on `lower` and the default result. -/
def relationalLower {t : Ty} (ho : t.isOrd = true) (lower upper : Expr t) : Option (Expr .bool) :=
  if lower.isBotLit then some (.boolLit true) else
  match lower with
  | .bin (.inf h) a b => do
      return .bin .or (← relationalLeq ho a upper) (← relationalLeq ho b upper)
  | .bin (.sup h) a b => do
      return .bin .and (← relationalLeq ho a upper) (← relationalLeq ho b upper)
  | .bin (.coimpl h) a b => do
      return .bin .or (← relationalLeq ho b upper) (← relationalLeq ho b a)
  | .bin (.cocompare h) a b => do
      let x ← relationalLeq ho b a
      match hu : upper.onlyEUReal with
      | some u' =>
          have := Expr.onlyEUReal_size hu
          return .bin .or x (← relationalLeq rfl .inftyLit u')
      | none => none
  | lower => some (.rel (.le ho) lower upper)
termination_by 2 * (lower.size + upper.size)
decreasing_by
  all_goals have h1 := upper.size_pos
  all_goals simp_wf
  all_goals simp only [Expr.size, Expr.inftyLit]
  all_goals try have h2 := a.size_pos
  all_goals try have h3 := b.size_pos
  all_goals omega

end

/-- `Relational::visit_expr` (`src/opt/relational.rs:19-50`). -/
def Expr.relational : {t : Ty} → Expr t → Option (Expr t)
  | _, .var x => some (.var x)
  | _, .lit l => some (.lit l)
  | _, .call f args => do
      let args' ← optTraverse f.args.length fun i => (args i).relational
      return .call f args'
  | _, .ite c a b => do return .ite (← c.relational) (← a.relational) (← b.relational)
  | _, .bin op a b => do return .bin op (← a.relational) (← b.relational)
  | _, .rel (s := s) op a b => do
      let a' ← a.relational
      let b' ← b.relational
      match op with
      | .le h => relationalLeq h a' b'
      | .ge h => relationalLeq h b' a'
      | .eq =>
          if h : s.isOrd = true then
            if a.isTopLit then relationalLeq h a' b'
            else if a.isBotLit then relationalLeq h b' a'
            else some (.rel .eq a' b')
          else some (.rel .eq a' b')
      | op => some (.rel op a' b')
  | _, .un op a => do return .un op (← a.relational)
  | _, .embed a => do return .embed (← a.relational)
  | _, .iverson a => do return .iverson (← a.relational)
  | _, .cast c a => do return .cast c (← a.relational)
  | _, .quant op h vs a => do return .quant op h vs (← a.relational)
  | _, .subst x e a => do return .subst x (← e.relational) (← a.relational)

end Caesar
