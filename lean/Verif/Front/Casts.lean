import Verif.Semantics

/-!
# Subtyping and implicit casts

Models `PartialOrd for TyKind` (`src/ast/ty.rs:111-136`) and `try_cast`, `try_unify`
(`src/front/tycheck.rs:42-66,106-125`).
-/

namespace Caesar

/-- The inner function `less` of `TyKind::partial_cmp` (`src/ast/ty.rs:113-124`). -/
def Ty.less : Ty → Ty → Bool
  | .uint, .ureal => true
  | .uint, .eureal => true
  | .uint, .int => true
  | .uint, .real => true
  | .int, .real => true
  | .ureal, .real => true
  | .ureal, .eureal => true
  | _, _ => false

/-- `TyKind::partial_cmp` (`src/ast/ty.rs:112-135`). -/
def Ty.partialCmp (a b : Ty) : Option Ordering :=
  if a = b then some .eq else if a.less b then some .lt else if b.less a then some .gt else none

/-- The cast node for a pair of types in the relation `less`. The code puts the target type into the `ty` annotation of the
`Cast` node (`wrap_cast_expr`, `src/front/tycheck.rs`); the model has one constructor for each legal pair. -/
def castOp : (s t : Ty) → s.less t = true → CastOp s t
  | .uint, .ureal, _ => .uintUReal
  | .uint, .eureal, _ => .uintEUReal
  | .uint, .int, _ => .uintInt
  | .uint, .real, _ => .uintReal
  | .int, .real, _ => .intReal
  | .ureal, .real, _ => .urealReal
  | .ureal, .eureal, _ => .urealEUReal

/-- `Tycheck::try_cast` (`src/front/tycheck.rs:42-66`). `none` stands for the error `CannotCast`. `SpecTy` is resolved to
`EUReal` before. -/
def tryCast (target : Ty) {s : Ty} (e : Expr s) : Option (Expr target) :=
  match h : target.partialCmp s with
  | some .eq => some ((show s = target by
      unfold Ty.partialCmp at h
      by_cases he : target = s
      · exact he.symm
      · simp only [he, if_false] at h
        split at h
        · cases h
        · split at h <;> cases h) ▸ e)
  | some .gt => some (.cast (castOp s target (by
      unfold Ty.partialCmp at h
      by_cases he : target = s
      · simp [he] at h
      · simp only [he, if_false] at h
        split at h
        · cases h
        · split at h
          · assumption
          · cases h)) e)
  | _ => none

/-- `Tycheck::try_unify` (`src/front/tycheck.rs:106-125`): the common type and both operands, with a cast around at most one
of them. `none` stands for the error `TypeMismatch`. -/
def tryUnify {s t : Ty} (a : Expr s) (b : Expr t) : Option ((u : Ty) × Expr u × Expr u) :=
  match h : s.partialCmp t with
  | some .eq => some ⟨s, a, (show t = s by
      unfold Ty.partialCmp at h
      by_cases he : s = t
      · exact he.symm
      · simp only [he, if_false] at h
        split at h
        · cases h
        · split at h <;> cases h) ▸ b⟩
  | some .lt => some ⟨t, .cast (castOp s t (by
      unfold Ty.partialCmp at h
      by_cases he : s = t
      · simp [he] at h
      · simp only [he, if_false] at h
        split at h
        · assumption
        · split at h <;> cases h)) a, b⟩
  | some .gt => some ⟨s, a, .cast (castOp t s (by
      unfold Ty.partialCmp at h
      by_cases he : s = t
      · simp [he] at h
      · simp only [he, if_false] at h
        split at h
        · cases h
        · split at h
          · assumption
          · cases h)) b⟩
  | none => none

end Caesar
