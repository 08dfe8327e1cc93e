import Verif.Front.TyUse

/-!
# C59: What the type checker accepts is well typed

The theorems say that a declaration that passes `Tycheck` stands for exactly one declaration of the typed syntax tree of
`Verif.Syntax`, which is what the other parts of the model start from. `Reads` (`Verif.Front.Reads`) relates trees with type
annotations to typed trees. `Resolved` and its variants (`Verif.Front.Scoped`) say what the parser and name resolution guarantee.
-/

namespace Caesar
namespace Front

/-! ## Statement and counterexamples -/

/-- The full property: every procedure that the type checker accepts can be read as a typed procedure. -/
def C59_full : Prop :=
  ∀ (Γ Γ' : Ctx) (p p' : RProc), ResolvedP Γ p → checkProcDecl p Γ = some (p', Γ') → ∃ P, ReadsProc Γ' p' P

/-- Declarations for the examples. -/
def c59Len : Ident := ⟨"len", 0⟩
def c59Sel : Ident := ⟨"select", 0⟩
def c59Inv : Ident := ⟨"invariant", 0⟩
def c59Flip : Ident := ⟨"flip", 0⟩
def c59Proc : Ident := ⟨"coin", 1⟩
def c59N : Ident := ⟨"n", 2⟩
def c59C : Ident := ⟨"c", 3⟩
def c59B : Ident := ⟨"b", 4⟩
def c59Y : Ident := ⟨"y", 5⟩

def c59Ctx : Ctx := fun x =>
  if x = c59Len then some (.listOp .len)
  else if x = c59Sel then some (.listOp .select)
  else if x = c59Inv then some (.annot .invariant)
  else if x = c59Flip then some (.dist .flip)
  else if x = c59Proc then some (.proc [.uint] [.ureal])
  else if x = c59N then some (.var (.val .uint) .input)
  else if x = c59C then some (.var (.val .ureal) .output)
  else if x = c59B then some (.var (.val .bool) .mut)
  else if x = c59Y then some (.var .none .subst)
  else none

theorem c59Ctx_var {x : Ident} {t : RTy} {k : VarKind} (h : c59Ctx x = some (.var t k)) :
    (x = c59N ∧ t = .val .uint ∧ k = .input) ∨ (x = c59C ∧ t = .val .ureal ∧ k = .output) ∨
      (x = c59B ∧ t = .val .bool ∧ k = .mut) ∨ (x = c59Y ∧ t = .none ∧ k = .subst) := by
  unfold c59Ctx at h
  repeat' split at h
  all_goals simp at h <;> simp_all

theorem c59Ctx_ok : CtxOk c59Ctx := by
  intro x t k h
  rcases c59Ctx_var h with ⟨-, rfl, rfl⟩ | ⟨-, rfl, rfl⟩ | ⟨-, rfl, rfl⟩ | ⟨-, rfl, rfl⟩
  · exact .inr ⟨_, rfl⟩
  · exact .inr ⟨_, rfl⟩
  · exact .inr ⟨_, rfl⟩
  · exact .inl ⟨rfl, rfl⟩

/-- `proc coin(n: UInt) -> (c: UReal) post len(5) {}` -/
def c59Bad : RProc where
  name := c59Proc
  dir := .down
  inputs := [⟨⟨c59N, .uint⟩, 0⟩]
  outputs := [⟨c59C, .ureal⟩]
  spec := [.ensures (.call none c59Len [.lit none (.uint 5)])]
  body := none

/-- Nothing checks the argument of `len`. -/
theorem C59_not_full : ¬ C59_full := by
  intro h
  obtain ⟨P, hP⟩ := h c59Ctx c59Ctx c59Bad
    { c59Bad with spec := [.ensures (.cast (some (.val .eureal)) (.call (some (.val .uint)) c59Len [uintLit 5]))] }
    ⟨c59Ctx_ok, by simp [c59Bad, letsSpec, RSpec.expr, RExpr.lets, letsL, RProc.block, letsB],
      by simp [c59Bad, letsSpec, RSpec.expr, RExpr.lets, letsL, RProc.block, letsB],
      by simp [c59Bad, RSpec.expr, RExpr.InScope, InScopeL], by simp [c59Bad, RSpec.expr, RExpr.Plain, PlainL],
      by simp [c59Bad, RProc.block, InScopeB], by simp [c59Bad, RProc.block, PlainB]⟩
    rfl
  obtain ⟨_, _, h1, -, -⟩ := List.forall₂_cons_left_iff.1 hP.spec
  cases h1 with
  | ensures h1 =>
  cases h1 with
  | cast _ h2 =>
  cases h2 with
  | call hf hl as h =>
  cases hf with
  | func hf => exact nomatch (show some (RDecl.listOp .len) = _ from hf)
  | select hf => exact nomatch (show some (RDecl.listOp .len) = _ from hf)
  | len hf =>
    have := h 0
    generalize hA : as 0 = A at this
    exact nomatch Reads.ty this

/-- Comparisons of string literals are accepted as well, and are not values of the later phases. -/
theorem C59_not_strings : ∃ e e', check false false e c59Ctx = some (e', c59Ctx) ∧ e'.ty = some (.val .bool) ∧
    ∀ t (E : Expr t), ¬ Reads c59Ctx e' t E := by
  refine ⟨.bin none .eq (.lit none (.str "a")) (.lit none (.str "b")),
    .bin (some (.val .bool)) .eq (.lit (some .string) (.str "a")) (.lit (some .string) (.str "b")), rfl, rfl, ?_⟩
  intro t E h
  cases h with
  | bin ho _ _ => cases ho
  | rel ho ha hb => cases ha

/-- The axioms of domains need not be Boolean, because the case for axioms of the type checker is never reached. -/
theorem C59_not_axioms : ∃ e e', Resolved c59Ctx e ∧ checkAxiom e c59Ctx = some (e', c59Ctx) ∧ e'.ty = some (.val .uint) :=
  ⟨.lit none (.uint 5), uintLit 5, ⟨c59Ctx_ok, by simp [RExpr.lets], by simp [RExpr.lets], by simp [RExpr.InScope],
    by simp [RExpr.Plain]⟩, rfl, rfl⟩

/-! ## Theorems -/

/-- An accepted expression, without strings and with `len` on lists only, can be read as a typed expression. -/
theorem C59_expr_partial {Γ Γ' : Ctx} {pre : Bool} {e e' : RExpr} (hr : Resolved Γ e) (h : check pre false e Γ = some (e', Γ'))
    (hl : LenOnLists Γ e') : ∃ t, ∃ E : Expr t, Reads Γ' e' t E :=
  (check_rd (bound := []) pre Γ e h ⟨.refl _, hr.ctx, fun _ h => (nomatch h), hr.lets, hr.nodup⟩ hr.scope hr.plain hl).1

/-- The same for statements. -/
theorem C59_stmts_partial {Γ Γ' : Ctx} {ss ss' : List RStmt} (hr : ResolvedB Γ ss) (h : checkSL ss Γ = some (ss', Γ'))
    (hl : LenOkB (fun f => Γ f = some (.listOp .len)) ss') : ∃ S, ReadsB Γ' ss' S :=
  (checkSL_rd Γ ss h ⟨.refl _, hr.ctx, fun _ h => (nomatch h), hr.lets, hr.nodup⟩ hr.scope hr.plain hl).1

/-- The same for procedures. -/
theorem C59_partial {Γ Γ' : Ctx} {p p' : RProc} (hr : ResolvedP Γ p) (h : checkProcDecl p Γ = some (p', Γ'))
    (hl : LenOnListsP Γ p') : ∃ P, ReadsProc Γ' p' P := checkProcDecl_rd h hr hl

/-- There is one reading only, and it has the type of the annotation. -/
theorem C59_unique {Γ : Ctx} {e : RExpr} {t t' : Ty} {E : Expr t} {E' : Expr t'} (h : Reads Γ e t E) (h' : Reads Γ e t' E') :
    e.ty = some (.val t) ∧ (⟨t, E⟩ : (t : Ty) × Expr t) = ⟨t', E'⟩ := ⟨h.ty, h.unique h'⟩

/-- Type checking adds type annotations and casts and changes nothing else. -/
theorem C59_strip {Γ Γ' : Ctx} {p p' : RProc} (h : checkProcDecl p Γ = some (p', Γ')) : p'.strip = p.strip :=
  checkProcDecl_strip h

/-- An accepted expression is accepted again and is not changed any more. -/
theorem C59_recheck {Γ Γ' : Ctx} {pre : Bool} {e e' : RExpr} (hr : Resolved Γ e) (h : check pre false e Γ = some (e', Γ'))
    (hl : LenOnLists Γ e') : check pre false e' Γ' = some (e', Γ') := by
  obtain ⟨t, E, hE⟩ := C59_expr_partial hr h hl
  exact hE.check (check_caught pre e h) false

/-- Bodies assign to and havoc local variables and outputs only. -/
theorem C59_targets {Γ Γ' : Ctx} {p p' : RProc} (h : checkProcDecl p Γ = some (p', Γ')) :
    ∀ x ∈ targetsB p.block, ∃ t k, Γ x = some (.var t k) ∧ (k = .mut ∨ k = .output) := by
  simp only [checkProcDecl, Option.bind_eq_bind, Option.bind_eq_some_iff, Prod.exists, Option.pure_def] at h
  obtain ⟨spec, Γ₁, hspec, h⟩ := h
  split at h
  · rename_i hb
    simp [RProc.block, hb, targetsB]
  · rename_i b hb
    simp only [Option.bind_eq_some_iff, Prod.exists, Option.some.injEq, Prod.mk.injEq] at h
    obtain ⟨b', Γ₂, hb', rfl, rfl⟩ := h
    intro x hx
    simp only [RProc.block, hb, Option.getD_some] at hx
    exact (checkSL_mutable b hb' x hx).back (checkSpecs_frame hspec).1.1

/-- Outputs do not occur in preconditions. -/
theorem C59_pre {Γ Γ' : Ctx} {p p' : RProc} {P : Proc} (h : checkProcDecl p Γ = some (p', Γ')) (hP : ReadsProc Γ' p' P)
    (E : Expr .eureal) (hE : .requires E ∈ P.spec) (x : Ident) (u : RTy) (hx : Γ x = some (.var u .output)) (s : Ty) :
    ¬ E.Free ⟨x, s⟩ := checkProcDecl_pre h hP hE hx s

/-! ## Non-vacuity -/

/-- `proc coin(n: UInt) -> (c: UReal) pre [n <= 3] post let(y, n, c + y) { @invariant(c) while b { b = flip(c); c = coin(n) } }` -/
def c59Good : RProc where
  name := c59Proc
  dir := .down
  inputs := [⟨⟨c59N, .uint⟩, 0⟩]
  outputs := [⟨c59C, .ureal⟩]
  spec := [.requires (.un none .iverson (.bin none .le (.var none c59N) (.lit none (.uint 3)))),
    .ensures (.subst none c59Y (.var none c59N) (.bin none .add (.var none c59C) (.var none c59Y)))]
  body := some [.annot c59Inv [.var none c59C] (.while (.var none c59B)
    [.assign [c59B] (.call none c59Flip [.var none c59C]), .assign [c59C] (.call none c59Proc [.var none c59N])])]

/-- The procedure after type checking. -/
def c59GoodTyped : RProc :=
  { c59Good with
    spec := [.requires (.un (some (.val .eureal)) .iverson
        (.bin (some (.val .bool)) .le (.var (some (.val .uint)) c59N) (uintLit 3))),
      .ensures (.cast (some (.val .eureal)) (.subst (some (.val .ureal)) c59Y (.var (some (.val .uint)) c59N)
        (.bin (some (.val .ureal)) .add (.var (some (.val .ureal)) c59C)
          (.cast (some (.val .ureal)) (.var (some (.val .uint)) c59Y)))))]
    body := some [.annot c59Inv [.cast (some (.val .eureal)) (.var (some (.val .ureal)) c59C)]
      (.while (.var (some (.val .bool)) c59B)
        [.assign [c59B] (.call (some (.tuple [.bool])) c59Flip [.var (some (.val .ureal)) c59C]),
          .assign [c59C] (.call (some (.tuple [.ureal])) c59Proc [.var (some (.val .uint)) c59N])])] }

/-- The declarations after type checking: the variable of `let` has a type. -/
def c59Ctx' : Ctx := Function.update c59Ctx c59Y (some (.var (.val .uint) .subst))

example : checkProcDecl c59Good c59Ctx = some (c59GoodTyped, c59Ctx') := rfl

theorem c59Good_resolved : ResolvedP c59Ctx c59Good where
  ctx := c59Ctx_ok
  lets := by
    simp [c59Good, letsSpec, RSpec.expr, RExpr.lets, letsL, RProc.block, letsB, RStmt.lets]
    rfl
  nodup := by simp [c59Good, letsSpec, RSpec.expr, RExpr.lets, letsL, RProc.block, letsB, RStmt.lets]
  specScope := by
    intro s hs
    simp only [c59Good, List.mem_cons, List.not_mem_nil, or_false] at hs
    rcases hs with rfl | rfl
    · simp only [RSpec.expr, RExpr.InScope, and_true]
      rintro ⟨k, hk⟩
      cases hk
    · simp only [RSpec.expr, RExpr.InScope]
      refine ⟨?_, ?_, fun _ => .head _⟩
      · rintro ⟨k, hk⟩
        cases hk
      · rintro ⟨k, hk⟩
        cases hk
  specPlain := by
    intro s hs
    simp only [c59Good, List.mem_cons, List.not_mem_nil, or_false] at hs
    rcases hs with rfl | rfl <;> simp [RSpec.expr, RExpr.Plain]
  scope := by
    simp only [c59Good, RProc.block, Option.getD_some, InScopeB, RStmt.InScope, RExpr.InScope, InScopeL, and_true]
    refine ⟨⟨_, rfl, trivial⟩, ?_, ?_, ?_, ?_⟩ <;>
    · rintro ⟨k, hk⟩
      cases hk
  plain := by simp [c59Good, RProc.block, PlainB, RStmt.Plain, RExpr.Plain, PlainL]

theorem c59Good_len : LenOnListsP c59Ctx c59GoodTyped := by
  have h1 : c59Ctx c59Flip ≠ some (.listOp .len) := fun h => nomatch h
  have h2 : c59Ctx c59Proc ≠ some (.listOp .len) := fun h => nomatch h
  refine ⟨fun s hs => ?_, ?_⟩
  · simp only [c59GoodTyped, List.mem_cons, List.not_mem_nil, or_false] at hs
    rcases hs with rfl | rfl <;> simp [LenOnLists, RSpec.expr, RExpr.LenOk, uintLit]
  · simp [c59GoodTyped, RProc.block, LenOkB, RStmt.LenOk, RExpr.LenOk, LenOkL, h1, h2]

example : ∃ P, ReadsProc c59Ctx' c59GoodTyped P := C59_partial c59Good_resolved rfl c59Good_len

/-- An input is not assigned to. -/
example (d : Dir) : checkProcDecl { c59Good with body := some [.havoc d [c59N]] } c59Ctx = none := rfl

/-- An output is not read in a precondition. -/
example : checkProcDecl { c59Good with spec := [.requires (.var none c59C)] } c59Ctx = none := rfl

/-- Procedures are not called in expressions. -/
example : checkProcDecl { c59Good with spec := [.ensures (.call none c59Proc [.var none c59N])] } c59Ctx = none := rfl

end Front
end Caesar
