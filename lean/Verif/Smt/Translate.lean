import Verif.FreeVars
import Verif.ScopeMap
import Verif.Smt.EUReal

/-!
# Model of the translation of expressions to SMT

Models `src/smt/translate_exprs.rs` (`TranslateExprs`), `src/smt/symbolic.rs:44-69, 136-148` (conversions),
`src/smt/funcs/util.rs:113-126` (calls), `z3rro/src/scope.rs` (scopes).

An SMT term is modelled by its value as a function of the SMT model (`Term`). The translator itself is modelled with
its state: fresh symbols, scoped locals, the stack of quantifiers, the global constraints and the cache.

Simplifications:
* Locals are keyed by identifier and type (in the code the type is looked up in the `TyCtx`).
* Lists are not translated (`none`); C15 is about their encoding. Triggers, quantifier ids, weights, and the wrapping of
  literals (`wrap_if_literal`; `Lit` functions are the identity) have no meaning in an SMT model and are dropped.
* The pointer-keyed cache with its test of reference counts is replaced by an oracle which decides for each visit whether an
  entry is used, and which one, and whether the result is stored. The entry which is used is one for an equal expression.
* `none` is a panic.
-/

namespace Caesar.Smt

variable [Doms]

/-- The value of a term of the given type in an SMT model (`Symbolic`, `src/smt/symbolic.rs:22-34`): `UInt` and `Int` terms
have sort `Int`, `UReal` and `Real` terms sort `Real`, `EUReal` terms are pairs. -/
def SVal : Ty → Type
  | .bool => Prop
  | .uint => ℤ
  | .int => ℤ
  | .ureal => ℝ
  | .real => ℝ
  | .eureal => Pair
  | .list _ => Unit
  | .dom n => Doms.dom n

/-- The value of an argument or result of an SMT function (`ty_to_sort`, `src/smt/mod.rs`): as `SVal`, but `EUReal` is a
datatype. -/
def DVal : Ty → Type
  | .eureal => Data
  | t => SVal t

/-- The part of an SMT model which the translation does not change: uninterpreted functions and the operations at zero,
which SMT-LIB leaves open. -/
class SmtInterp extends Data.Junk where
  func : {t : Ty} → (f : Func t) → ((i : Fin f.args.length) → DVal (f.args.get i)) → DVal t
  div0 : ℝ → ℝ
  mod0 : ℤ → ℤ

/-- A fresh symbol: its number and its type. -/
abbrev Symb := Nat × Ty

/-- The part of an SMT model about the symbols created by the translator: constants and Skolem functions. -/
structure Model where
  val : Nat → (t : Ty) → SVal t
  sk : Nat → List ((t : Ty) × SVal t) → Pair

open Classical in
/-- The model in which the given symbols have the values they have in `N`. -/
noncomputable def Model.over (M : Model) (bs : List Symb) (N : Model) : Model :=
  { M with val := fun n t => if (n, t) ∈ bs then N.val n t else M.val n t }

/-- A term. -/
abbrev Term (t : Ty) := Model → SVal t

/-- `SmtInvariant` (`z3rro/src/uint.rs:56-61`, `z3rro/src/ureal.rs:60-65`, `z3rro/src/eureal/pair.rs:93-100`). -/
def inv : (t : Ty) → SVal t → Prop
  | .uint => fun (z : ℤ) => z ≥ 0
  | .ureal => fun (r : ℝ) => r ≥ 0
  | .eureal => fun (p : Pair) => Invariant.inv p
  | _ => fun _ => True

/-- The constraints of a scope of fresh variables (`SmtFresh::fresh`, `z3rro/src/scope.rs:166-172`). -/
def invOn (bs : List Symb) (N : Model) : Prop := ∀ s ∈ bs, inv s.2 (N.val s.1 s.2)

/-- `SmtScope::forall` (`z3rro/src/scope.rs:93-105`). -/
def scopeForall (bs : List Symb) (body : Term .bool) : Term .bool :=
  fun M => (∀ N : Model, invOn bs N → (show Prop from body (M.over bs N)) : Prop)

/-- `SmtScope::exists` (`z3rro/src/scope.rs:77-89`). -/
def scopeExists (bs : List Symb) (body : Term .bool) : Term .bool :=
  fun M => (∃ N : Model, invOn bs N ∧ (show Prop from body (M.over bs N)) : Prop)

/-! ## State -/

/-- `TranslateExprs` (`src/smt/translate_exprs.rs:28-45`). `next` is the supply of fresh symbols (Z3's), `locals` the
symbols of variables, `quants` the bounds in `quantifier_stack`, `global` the constraints of `limits_stack.first()`, `cache`
the stack of caches. The other levels of `limits_stack` stay empty. -/
structure TState where
  next : Nat
  locals : ScopeMap Var Nat
  quants : List (List Symb)
  global : List (Model → Prop)
  cache : List (List ((t : Ty) × Expr t × Term t))

/-- `TranslateExprs::new` (`src/smt/translate_exprs.rs:50-59`). -/
def TState.new : TState := ⟨0, .new, [], [], [[]]⟩

/-- Decisions of the cache: `use` chooses an entry to be returned, `store` decides whether the result is stored
(`is_expr_worth_caching`, `src/smt/translate_exprs.rs:812-814`, and pointer equality of shared expressions). -/
structure Oracle where
  use : TState → {t : Ty} → Expr t → Option Nat
  store : TState → {t : Ty} → Expr t → Bool

namespace TState

/-- `init_local` and `get_local` (`src/smt/translate_exprs.rs:740-785`). -/
def getLocal (v : Var) (st : TState) : Option (Nat × TState) :=
  match st.locals.get v with
  | some n => some (n, st)
  | none =>
    match v.ty with
    | .list _ => none
    | _ => do
      let locals ← st.locals.insert v st.next
      some (st.next, { st with next := st.next + 1, locals := locals })

/-- `init_quantifier_free_vars`, the loop (`src/smt/translate_exprs.rs:149-151`). -/
def getLocals : List Var → TState → Option TState
  | [], st => some st
  | v :: vs, st => do
    let (_, st) ← getLocal v st
    getLocals vs st

/-- `mk_scope` (`src/smt/translate_exprs.rs:787-793`). -/
def mkScope : List Var → TState → Option (List Symb × TState)
  | [], st => some ([], st)
  | v :: vs, st => do
    let (n, st) ← getLocal v st
    let (bs, st) ← mkScope vs st
    some ((n, v.ty) :: bs, st)

/-- `fresh` for a list of variables (`src/smt/translate_exprs.rs:139-141`). -/
def freshAll : List Var → TState → Option TState
  | [], st => some st
  | v :: vs, st => do
    let locals ← st.locals.remove v
    freshAll vs { st with locals := locals }

/-- `push` (`src/smt/translate_exprs.rs:61-66`). -/
def push (st : TState) : TState := { st with locals := st.locals.push.1, cache := [] :: st.cache }

/-- `pop` (`src/smt/translate_exprs.rs:68-73`). -/
def pop (st : TState) : Option TState := do
  let locals ← st.locals.uncheckedPop
  some { st with locals := locals, cache := st.cache.tail }

/-- `init_quantifier_free_vars` and the first part of `with_current_quantifier_bounds`
(`src/smt/translate_exprs.rs:145-152, 93-106`). -/
def enter {t : Ty} (a : Expr t) (vs : List Var) (st : TState) : Option (List Symb × TState) := do
  let free ← a.collect []
  let st ← getLocals (free.filter (· ∉ vs)) st
  let st ← freshAll vs st.push
  let (bs, st) ← mkScope vs st
  some (bs, { st with quants := bs :: st.quants })

/-- The last part of `with_current_quantifier_bounds` (`src/smt/translate_exprs.rs:107-110`). -/
def leave (st : TState) : Option TState := pop { st with quants := st.quants.tail }

/-- The value of a fresh Skolem function applied to its arguments (`EUReal::allocate_skolem`). (`z3rro/src/scope.rs:180-184,196`) -/
def skolem (k : Nat) (args : List Symb) : Term .eureal :=
  fun M => M.sk k (args.map fun s => ⟨s.2, M.val s.1 s.2⟩)

/-- `infimum` and `supremum` (`z3rro/src/orders.rs:216-273`) with the global scope: a fresh Skolem function of the outer
bound variables, and its constraints. -/
noncomputable def extremum (op : QOp) (bs args : List Symb) (body : Term .eureal) (st : TState) : Option (Term .eureal × TState) :=
  let ext := skolem st.next args
  let bodyOf (M A Q : Model) : Pair := body ((M.over args A).over bs Q)
  let extOf (M A : Model) : Pair := ext (M.over args A)
  match op with
  | .inf => some (ext, { st with
      next := st.next + 1
      global := (fun M => InfimumAxioms (α := Pair) (invOn args) (fun _ => invOn bs) (bodyOf M) (extOf M)) :: st.global })
  | .sup => some (ext, { st with
      next := st.next + 1
      global := (fun M => SupremumAxioms (α := Pair) (invOn args) (fun _ => invOn bs) (bodyOf M) (extOf M)) :: st.global })
  | .forall => none
  | .exists => none

/-- The lookup in the cache (`TranslateCache::get`, `src/smt/translate_exprs.rs:840-843`): the chosen entry of the last level,
if it is for the same expression. -/
noncomputable def lookup (O : Oracle) {t : Ty} (e : Expr t) (st : TState) : Option (Term t) := by
  classical exact
  match O.use st e with
  | none => none
  | some i =>
    match (st.cache.headD [])[i]? with
    | none => none
    | some ⟨t', e', r⟩ => if h : t' = t then (if h ▸ e' = e then some (h ▸ r) else none) else none

/-- `TranslateCache::insert` (`src/smt/translate_exprs.rs:835-838`). -/
def remember {t : Ty} (e : Expr t) (r : Term t) (st : TState) : TState :=
  match st.cache with
  | [] => st
  | c :: cs => { st with cache := (⟨t, e, r⟩ :: c) :: cs }

/-- The two uses of the cache around the translation of a node, e.g. `src/smt/translate_exprs.rs:172-183, 272-275`.
`t_eureal` does not use the cache. -/
noncomputable def cached (O : Oracle) {t : Ty} (e : Expr t) (act : TState → Option (Term t × TState)) (st : TState) :
    Option (Term t × TState) :=
  if t = .eureal then act st else
  match lookup O e st with
  | some r => some (r, st)
  | none => do
    let (r, st) ← act st
    some (r, if O.store st e then remember e r st else st)

end TState

/-! ## Operators -/

/-- `int_monus` (`z3rro/src/uint.rs:133-135`). -/
noncomputable def intMonus (a b : ℤ) : ℤ := smtIte (a ≥ b) (a - b) 0

open Classical in
/-- SMT-LIB's division of reals. (`src/smt/translate_exprs.rs:421,494`) -/
noncomputable def realDiv [SmtInterp] (a b : ℝ) : ℝ := if b = 0 then SmtInterp.div0 a else a / b

open Classical in
/-- SMT-LIB's `mod` of integers. (`src/smt/translate_exprs.rs:306,366`) -/
noncomputable def intMod [SmtInterp] (a b : ℤ) : ℤ := if b = 0 then SmtInterp.mod0 a else a % b

/-- `SmtBranch` at each type. (`z3rro/src/lib.rs:135-137`) -/
noncomputable def sBranch : (t : Ty) → Prop → SVal t → SVal t → SVal t
  | .eureal => fun c (a b : Pair) => (branch c a b : Pair)
  | _ => smtIte

/-- `SmtEq` at each type (`src/smt/translate_exprs.rs:197-214`); lists are not modelled. -/
def sEq : (t : Ty) → Option (SVal t → SVal t → Prop)
  | .eureal => some fun (a b : Pair) => a.smtEq b
  | .list _ => none
  | _ => some fun a b => a = b

/-- `SmtPartialOrd` where comparisons are translated (`src/smt/translate_exprs.rs:218-235`). -/
def sCmp (o : Ordering) : (t : Ty) → Option (SVal t → SVal t → Prop)
  | .uint => some fun (a b : ℤ) => PartialOrd.cmp a b o
  | .int => some fun (a b : ℤ) => PartialOrd.cmp a b o
  | .ureal => some fun (a b : ℝ) => PartialOrd.cmp a b o
  | .real => some fun (a b : ℝ) => PartialOrd.cmp a b o
  | .eureal => some fun (a b : Pair) => PartialOrd.cmp a b o
  | _ => none

/-- The comparisons (`src/smt/translate_exprs.rs:197-235`). -/
def sRel : {t : Ty} → RelOp t → Option (SVal t → SVal t → Prop)
  | t, .eq => sEq t
  | t, .ne => (sEq t).map fun f a b => ¬ f a b
  | t, .lt _ => sCmp .less t
  | t, .le _ => sCmp .lessOrEqual t
  | t, .ge _ => sCmp .greaterOrEqual t
  | t, .gt _ => sCmp .greater t

/-- `Add` (`src/smt/translate_exprs.rs:303, 363, 418, 491, 556`). -/
noncomputable def sAdd : (t : Ty) → Option (SVal t → SVal t → SVal t)
  | .uint => some fun (a b : ℤ) => (a + b : ℤ)
  | .int => some fun (a b : ℤ) => (a + b : ℤ)
  | .ureal => some fun (a b : ℝ) => (a + b : ℝ)
  | .real => some fun (a b : ℝ) => (a + b : ℝ)
  | .eureal => some fun (a b : Pair) => a.add b
  | _ => none

/-- `Sub` (`src/smt/translate_exprs.rs:304, 364, 419, 492, 557`, `z3rro/src/uint.rs:114-120`, `z3rro/src/ureal.rs:121-127`). -/
noncomputable def sSub : (t : Ty) → Option (SVal t → SVal t → SVal t)
  | .uint => some fun (a b : ℤ) => intMonus a b
  | .int => some fun (a b : ℤ) => (a - b : ℤ)
  | .ureal => some fun (a b : ℝ) => realMonus a b
  | .real => some fun (a b : ℝ) => (a - b : ℝ)
  | .eureal => some fun (a b : Pair) => a.sub b
  | _ => none

/-- `Mul` (`src/smt/translate_exprs.rs:305, 365, 420, 493, 558`). -/
noncomputable def sMul : (t : Ty) → Option (SVal t → SVal t → SVal t)
  | .uint => some fun (a b : ℤ) => (a * b : ℤ)
  | .int => some fun (a b : ℤ) => (a * b : ℤ)
  | .ureal => some fun (a b : ℝ) => (a * b : ℝ)
  | .real => some fun (a b : ℝ) => (a * b : ℝ)
  | .eureal => some fun (a b : Pair) => a.mul b
  | _ => none

/-- `Div` (`src/smt/translate_exprs.rs:421, 494`). -/
noncomputable def sDiv [SmtInterp] : (t : Ty) → Option (SVal t → SVal t → SVal t)
  | .ureal => some fun (a b : ℝ) => realDiv a b
  | .real => some fun (a b : ℝ) => realDiv a b
  | _ => none

/-- `Mod` (`src/smt/translate_exprs.rs:306, 366`, `z3rro/src/uint.rs:43-45`). -/
noncomputable def sMod [SmtInterp] : (t : Ty) → Option (SVal t → SVal t → SVal t)
  | .uint => some fun (a b : ℤ) => intMod a b
  | .int => some fun (a b : ℤ) => intMod a b
  | _ => none

/-- `Inf` (`src/smt/translate_exprs.rs:216, 307, 367, 422, 495, 559`). -/
noncomputable def sInf' : (t : Ty) → Option (SVal t → SVal t → SVal t)
  | .bool => some fun (a b : Prop) => (Lat.inf a b : Prop)
  | .uint => some fun (a b : ℤ) => (smtMin a b : ℤ)
  | .int => some fun (a b : ℤ) => (smtMin a b : ℤ)
  | .ureal => some fun (a b : ℝ) => (smtMin a b : ℝ)
  | .real => some fun (a b : ℝ) => (smtMin a b : ℝ)
  | .eureal => some fun (a b : Pair) => (Lat.inf a b : Pair)
  | _ => none

/-- `Sup` (`src/smt/translate_exprs.rs:217, 308, 368, 423, 496, 560`). -/
noncomputable def sSup' : (t : Ty) → Option (SVal t → SVal t → SVal t)
  | .bool => some fun (a b : Prop) => (Lat.sup a b : Prop)
  | .uint => some fun (a b : ℤ) => (smtMax a b : ℤ)
  | .int => some fun (a b : ℤ) => (smtMax a b : ℤ)
  | .ureal => some fun (a b : ℝ) => (smtMax a b : ℝ)
  | .real => some fun (a b : ℝ) => (smtMax a b : ℝ)
  | .eureal => some fun (a b : Pair) => (Lat.sup a b : Pair)
  | _ => none

/-- `Impl` (`src/smt/translate_exprs.rs:215, 561`). -/
noncomputable def sImpl : (t : Ty) → Option (SVal t → SVal t → SVal t)
  | .bool => some fun (a b : Prop) => (a → b : Prop)
  | .eureal => some fun (a b : Pair) => (implication a b : Pair)
  | _ => none

/-- An operator which is only translated on `EUReal` (`src/smt/translate_exprs.rs:562-564`; on `Bool` it panics,
`src/smt/translate_exprs.rs:236`). -/
def onlyEUReal (f : Pair → Pair → Pair) : (t : Ty) → Option (SVal t → SVal t → SVal t)
  | .eureal => some f
  | _ => none

/-- The binary operators whose result has the type of the operands. (`src/smt/translate_exprs.rs:172-636`) -/
noncomputable def sBin [SmtInterp] : {t : Ty} → BinOp t → Option (SVal t → SVal t → SVal t)
  | t, .add _ => sAdd t
  | t, .sub _ => sSub t
  | t, .mul _ => sMul t
  | t, .div _ => sDiv t
  | t, .mod _ => sMod t
  | _, .and => some fun (a b : Prop) => (a ∧ b : Prop)
  | _, .or => some fun (a b : Prop) => (a ∨ b : Prop)
  | t, .inf _ => sInf' t
  | t, .sup _ => sSup' t
  | t, .impl _ => sImpl t
  | t, .coimpl _ => onlyEUReal coimplication t
  | t, .compare _ => onlyEUReal compare t
  | t, .cocompare _ => onlyEUReal cocompare t

/-- `Not` (`src/smt/translate_exprs.rs:239, 569`). -/
noncomputable def sNot : (t : Ty) → Option (SVal t → SVal t)
  | .bool => some fun (a : Prop) => (¬ a : Prop)
  | .eureal => some fun (a : Pair) => (negate a : Pair)
  | _ => none

/-- `Non` (`src/smt/translate_exprs.rs:239, 570`). -/
noncomputable def sNon : (t : Ty) → Option (SVal t → SVal t)
  | .bool => some fun (a : Prop) => (¬ a : Prop)
  | .eureal => some fun (a : Pair) => (conegate a : Pair)
  | _ => none

/-- The unary operators whose result has the type of the operand. (`src/smt/translate_exprs.rs:172-636`) -/
noncomputable def sUn : {t : Ty} → UnOp t → Option (SVal t → SVal t)
  | t, .not _ => sNot t
  | t, .non _ => sNon t
  | _, .parens => some id

/-- Casts (`src/smt/translate_exprs.rs:315-324, 430-447, 503-512, 581-594`). -/
noncomputable def sCast : {s t : Ty} → CastOp s t → SVal s → SVal t
  | _, _, .uintInt => fun (z : ℤ) => z
  | _, _, .uintUReal => fun (z : ℤ) => ((z : ℝ) : ℝ)
  | _, _, .uintReal => fun (z : ℤ) => ((z : ℝ) : ℝ)
  | _, _, .uintEUReal => fun (z : ℤ) => Pair.fromUInt z
  | _, _, .intReal => fun (z : ℤ) => ((z : ℝ) : ℝ)
  | _, _, .urealReal => fun (r : ℝ) => r
  | _, _, .urealEUReal => fun (r : ℝ) => Pair.fromUReal r

/-- Literals (`src/smt/translate_exprs.rs:267-270, 380-383, 515-522, 623-631`). Literals of type `Real` panic
(`src/smt/translate_exprs.rs:450-453`). -/
noncomputable def sLit : {t : Ty} → Lit t → Option (SVal t)
  | _, .bool b => some (b = true : Prop)
  | _, .uint n => some (n : ℤ)
  | _, .ufrac q => some ((q : ℚ) : ℝ)
  | _, .rfrac _ => none
  | _, .efrac q => some (Pair.fromUReal ((q : ℚ) : ℝ))
  | _, .infty => some Pair.infinity

/-- `Symbolic::into_dynamic` (`src/smt/symbolic.rs:136-148`). -/
noncomputable def toDyn : (t : Ty) → SVal t → DVal t
  | .eureal => fun (p : Pair) => pairToData p
  | .bool => id | .uint => id | .int => id | .ureal => id | .real => id | .list _ => id | .dom _ => id

/-- `Symbolic::from_dynamic` (`src/smt/symbolic.rs:44-69`). -/
noncomputable def ofDyn [SmtInterp] : (t : Ty) → DVal t → SVal t
  | .eureal => fun (d : Data) => dataToPair d
  | .bool => id | .uint => id | .int => id | .ureal => id | .real => id | .list _ => id | .dom _ => id

/-- `translate_plain_call` (`src/smt/funcs/util.rs:118-128`). -/
noncomputable def sCall [SmtInterp] {t : Ty} (f : Func t) (args : (i : Fin f.args.length) → SVal (f.args.get i)) : SVal t :=
  ofDyn t (SmtInterp.func f fun i => toDyn _ (args i))

/-- Translating the arguments of a call in order (`src/smt/translate_exprs.rs:723`). -/
def mapFin {S : Type} : {n : Nat} → {α : Fin n → Type} → ((i : Fin n) → S → Option (α i × S)) → S → Option (((i : Fin n) → α i) × S)
  | 0, _, _, s => some (fun i => i.elim0, s)
  | _ + 1, _, f, s => do
    let (a, s) ← f 0 s
    let (r, s) ← mapFin (fun i => f i.succ) s
    some (Fin.cases a r, s)

/-- Lists are not modelled. (`src/smt/translate_exprs.rs:684`) -/
def noList : Ty → Option Unit
  | .list _ => none
  | _ => some ()

/-! ## Expressions -/

open TState in
/-- `t_symbolic` (`src/smt/translate_exprs.rs:154-170`) with `t_bool`, `t_int`, `t_uint`, `t_real`, `t_ureal`, `t_eureal`,
`t_uninterpreted` (`src/smt/translate_exprs.rs:172-682`), which have the same structure. -/
noncomputable def trans [SmtInterp] (O : Oracle) : {t : Ty} → Expr t → TState → Option (Term t × TState)
  | t, .var x, st => cached O (.var x) (fun st => do
      let (n, st) ← getLocal ⟨x, t⟩ st
      some (fun M => M.val n t, st)) st
  | _, .lit l, st => cached O (.lit l) (fun st => do
      let v ← sLit l
      some (fun _ => v, st)) st
  | t, .call f args, st => cached O (.call f args) (fun st => do
      let _ ← noList t
      let (as, st) ← mapFin (α := fun i => Term (f.args.get i)) (fun i => trans O (args i)) st
      some (fun M => sCall f fun i => as i M, st)) st
  | t, .ite c a b, st => cached O (.ite c a b) (fun st => do
      let (c, st) ← trans O c st
      let (a, st) ← trans O a st
      let (b, st) ← trans O b st
      some (fun M => sBranch t (c M) (a M) (b M), st)) st
  | _, .bin op a b, st => cached O (.bin op a b) (fun st => do
      let (a, st) ← trans O a st
      let (b, st) ← trans O b st
      let f ← sBin op
      some (fun M => f (a M) (b M), st)) st
  | _, .rel op a b, st => cached O (.rel op a b) (fun st => do
      let (a, st) ← trans O a st
      let (b, st) ← trans O b st
      let f ← sRel op
      some (fun M => f (a M) (b M), st)) st
  | _, .un op a, st => cached O (.un op a) (fun st => do
      let (a, st) ← trans O a st
      let f ← sUn op
      some (fun M => f (a M), st)) st
  | _, .embed a, st => cached O (.embed a) (fun st => do
      let (a, st) ← trans O a st
      some (fun M => (boolEmbed (a M) : Pair), st)) st
  | _, .iverson a, st => cached O (.iverson a) (fun st => do
      let (a, st) ← trans O a st
      some (fun M => Pair.iverson (a M), st)) st
  | _, .cast c a, st => cached O (.cast c a) (fun st => do
      let (a, st) ← trans O a st
      some (fun M => sCast c (a M), st)) st
  | .bool, .quant op h vs a, st => cached O (.quant op h vs a) (fun st => do
      let (bs, st) ← enter a (vs.map QVar.var) st
      let (a, st) ← trans O a st
      let st ← leave st
      match op with
      | .forall => some (scopeForall bs a, st)
      | .inf => some (scopeForall bs a, st)
      | .exists => some (scopeExists bs a, st)
      | .sup => some (scopeExists bs a, st)) st
  | .eureal, .quant op h vs a, st => cached O (.quant op h vs a) (fun st => do
      let args := st.quants.flatten
      let (bs, st) ← enter a (vs.map QVar.var) st
      let (a, st) ← trans O a st
      let st ← leave st
      extremum op bs args a st) st
  | _, .quant _ _ _ _, _ => none
  | _, .subst _ _ _, _ => none

end Caesar.Smt
