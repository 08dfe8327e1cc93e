import Verif.Lattice
import Verif.Tot

/-!
# Model of boolification

Models `src/opt/boolify.rs`. The recursion of the code is not structural (in the implication case the
operands are visited twice), so the model takes a bound on the recursion depth; `none` means that the
bound was too small (`C07_terminates` shows that a bound always exists).
-/

namespace Caesar
set_option linter.unusedVariables false

/-- `ExprKind::Unary(un_op, operand) if un_op.node == UnOpKind::Embed`. (`src/opt/boolify.rs:51,69,123,134,152,162`) -/
def Expr.asEmbed : {t : Ty} → Expr t → Option (Expr .bool)
  | _, .embed b => some b
  | _, _ => none

/-- `?(a) <- b` (`src/opt/boolify.rs:130-142`). -/
def Expr.asCoimplEmbed : {t : Ty} → Expr t → Option (Expr .bool × Expr t)
  | _, .bin (.coimpl _) a b => a.asEmbed.map (·, b)
  | _, _ => none

/-- `?(a) -> b` (`src/opt/boolify.rs:161-171`). -/
def Expr.asImplEmbed : {t : Ty} → Expr t → Option (Expr .bool × Expr t)
  | _, .bin (.impl _) a b => a.asEmbed.map (·, b)
  | _, _ => none

mutual

/-- `Boolify::visit_expr` (`src/opt/boolify.rs:21-93`). -/
def boolify : Nat → {t : Ty} → Expr t → Option (Expr t)
  | 0, _, _ => none
  | n + 1, t, e =>
    match e with
    | .rel (s := s) .eq a b =>
        if h : s.isLat = true then
          if a.isTopLit then boolifyEqTop n h b
          else if a.isBotLit then boolifyEqBot n h b
          else if b.isTopLit then boolifyEqTop n h a
          else if b.isBotLit then boolifyEqBot n h a
          else do return .rel .eq (← boolify n a) (← boolify n b)
        else do return .rel .eq (← boolify n a) (← boolify n b)
    | .rel (s := s) (.le ho) a b =>
        if h : s.isLat = true then boolifyLeq n h a b
        else do return .rel (.le ho) (← boolify n a) (← boolify n b)
    | .rel (s := s) (.ge ho) a b =>
        if h : s.isLat = true then boolifyLeq n h b a
        else do return .rel (.ge ho) (← boolify n a) (← boolify n b)
    | .rel op a b => do return .rel op (← boolify n a) (← boolify n b)
    | .bin (.impl h) a b => do
        let a1 ← boolify n a
        let b1 ← boolify n b
        match a1.asEmbed with
        | some c => return .ite c b1 (.topLit _ h)
        | none => return .bin (.impl h) (← boolify n a1) (← boolify n b1)
    | .bin (.coimpl h) a b => do
        let a1 ← boolify n a
        let b1 ← boolify n b
        match a1.asEmbed with
        | some c => return .ite c (.botLit _ h) b1
        | none => return .bin (.coimpl h) (← boolify n a1) (← boolify n b1)
    | .bin op a b => do return .bin op (← boolify n a) (← boolify n b)
    | .var x => some (.var x)
    | .lit l => some (.lit l)
    | .call f args => do return .call f (← optTraverse f.args.length fun i => boolify n (args i))
    | .ite c a b => do return .ite (← boolify n c) (← boolify n a) (← boolify n b)
    | .un op a => do return .un op (← boolify n a)
    | .embed a => do return .embed (← boolify n a)
    | .iverson a => do return .iverson (← boolify n a)
    | .cast c a => do return .cast c (← boolify n a)
    | .quant op h vs a => do return .quant op h vs (← boolify n a)
    | .subst x e a => do return .subst x (← boolify n e) (← boolify n a)

/-- `Boolify::visit_leq` (`src/opt/boolify.rs:97-179`). -/
def boolifyLeq : Nat → {t : Ty} → t.isLat = true → Expr t → Expr t → Option (Expr .bool)
  | 0, _, _, _, _ => none
  | n + 1, t, h, lhs, rhs =>
    if lhs.isBotLit then some (.boolLit true)
    else if lhs.isTopLit then boolifyEqTop n h rhs
    else if rhs.isBotLit then boolifyEqBot n h lhs
    else if rhs.isTopLit then some (.boolLit true)
    else match lhs.asEmbed with
    | some b => do return .bin (.impl rfl) b (← boolifyEqTop n h rhs)
    | none => match lhs.asCoimplEmbed with
      | some (a, b) => do return .bin .or a (← boolifyLeq n h b rhs)
      | none => match rhs.asEmbed with
        | some b => do return .bin .or b (← boolifyEqBot n h lhs)
        | none => match rhs.asImplEmbed with
          | some (a, b) => do return .bin (.impl rfl) a (← boolifyLeq n h lhs b)
          | none => do return .rel (.le (Ty.isOrd_of_isLat h)) (← boolify n lhs) (← boolify n rhs)

/-- `Boolify::visit_eq_top` (`src/opt/boolify.rs:181-242`). -/
def boolifyEqTop : Nat → {t : Ty} → t.isLat = true → Expr t → Option (Expr .bool)
  | 0, _, _, _ => none
  | n + 1, t, h, e =>
    match e with
    | .ite c a b => do return .ite (← boolify n c) (← boolifyEqTop n h a) (← boolifyEqTop n h b)
    | .bin (.impl _) l r => boolifyLeq n h l r
    | .bin (.compare _) l r => boolifyLeq n h l r
    | .bin (.inf _) a b => do return .bin .and (← boolifyEqTop n h a) (← boolifyEqTop n h b)
    | .bin (.sup _) a b => do return .bin .or (← boolifyEqTop n h a) (← boolifyEqTop n h b)
    | .un (.not _) a => boolifyEqBot n h a
    | e => match e.asEmbed with
      | some b => boolify n b
      | none => do return .rel .eq (.topLit t h) (← boolify n e)

/-- `Boolify::visit_eq_bot` (`src/opt/boolify.rs:244-310`). -/
def boolifyEqBot : Nat → {t : Ty} → t.isLat = true → Expr t → Option (Expr .bool)
  | 0, _, _, _ => none
  | n + 1, t, h, e =>
    match e with
    | .ite c a b => do return .ite (← boolify n c) (← boolifyEqBot n h a) (← boolifyEqBot n h b)
    | .bin (.coimpl _) l r => boolifyLeq n h r l
    | .bin (.cocompare _) l r => boolifyLeq n h r l
    | .bin (.inf _) a b => do return .bin .or (← boolifyEqBot n h a) (← boolifyEqBot n h b)
    | .bin (.sup _) a b => do return .bin .and (← boolifyEqBot n h a) (← boolifyEqBot n h b)
    | .un (.non _) a => boolifyEqTop n h a
    | e => match e.asEmbed with
      | some b => do return .un (.not rfl) (← boolify n b)
      | none => do return .rel .eq (.botLit t h) (← boolify n e)

end

end Caesar
