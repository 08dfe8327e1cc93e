import Verif.TyCtx
import Mathlib.Logic.Function.Basic

/-!
# The symbols of a query

Which Z3 symbols stand for the declarations of a program: the table of symbols (`src/smt/symbols.rs`), the sorts of types (`src/smt/mod.rs`,
`z3rro/src/list.rs`), the declaration of sorts and functions by the four function encoders (`src/smt/funcs`), and the names of the helper symbols
(`z3rro/src/lit.rs`, `z3rro/src/fuel.rs`, `z3rro/src/scope.rs`).
-/

namespace Caesar
namespace Symb

/-- `Symbolizer` (`src/smt/symbols.rs:7-15`). The maps are functions; a name without a counter has the counter 0. -/
structure Symbolizer where
  counter : String → Nat
  symbols : Ident → Option String

/-- `Symbolizer::default` (`src/smt/symbols.rs:8`). -/
def Symbolizer.new : Symbolizer := ⟨fun _ => 0, fun _ => none⟩

/-- The name for the counter `c` (`src/smt/symbols.rs:34-36`). -/
def numbered (n : String) (c : Nat) : String := if c > 0 then n ++ "_" ++ toString c else n

/-- `Symbolizer::get` (`src/smt/symbols.rs:18-43`). The entry that the loop looks at is that of the identifier, which is vacant because of the first lookup. So the
first iteration of the loop always returns. -/
def Symbolizer.get (s : Symbolizer) (x : Ident) : String × Symbolizer :=
  match s.symbols x with
  | some n => (n, s)
  | none =>
    let n := numbered x.name (s.counter x.name)
    (n, ⟨Function.update s.counter x.name (s.counter x.name + 1), Function.update s.symbols x (some n)⟩)

/-- A sequence of calls of `Symbolizer::get` (`src/smt/symbols.rs:18-43`). -/
def Symbolizer.run (s : Symbolizer) : List Ident → Symbolizer
  | [] => s
  | x :: xs => (s.get x).2.run xs

/-- `TyKind` (`src/ast/ty.rs:7-36`): the types of values. Domains are identifiers. -/
inductive STy where
  | bool | int | uint | real | ureal | eureal
  | list (t : STy)
  | domain (d : Ident)
  | tuple
  deriving DecidableEq

/-- Z3's sorts. Datatypes and uninterpreted sorts are identified by their names. (`src/smt/mod.rs:243-261`) -/
inductive ZSort where
  | bool | int | real
  | datatype (n : String)
  | uninterp (n : String)
  deriving DecidableEq

/-- The characters of SMT-LIB's simple symbols; Z3's `is_smt2_simple_symbol_char`, used by `Display for Sort` at `z3rro/src/list.rs:142`. -/
def simpleChar (c : Char) : Bool := c.isAlphanum || c ∈ "~!@$%^&*_-+=<>.?/".toList

/-- Z3's `mk_smt2_quoted_symbol`: bars and backslashes are escaped (`z3rro/src/list.rs:142`). -/
def escape : List Char → List Char
  | [] => []
  | c :: cs => if c = '|' ∨ c = '\\' then '\\' :: c :: escape cs else c :: escape cs

/-- How Z3 prints a symbol (`z3rro/src/list.rs:142`): not simple symbols are quoted. Z3 also quotes symbols that begin with a digit and does not quote those
that are between bars already; there are neither. -/
def quote (n : String) : String :=
  if n.toList.all simpleChar then n else "|" ++ String.ofList (escape n.toList) ++ "|"

/-- `Display for Sort` (`z3rro/src/list.rs:142`, `z3rro/src/lit.rs:39`). -/
def ZSort.show : ZSort → String
  | .bool => "Bool"
  | .int => "Int"
  | .real => "Real"
  | .datatype n => quote n
  | .uninterp n => quote n

/-- `ListFactory::new` (`z3rro/src/list.rs:141-172`): the sort. The cache of factories (`src/smt/mod.rs:173-186`) does not matter because the sort is
identified by its name. -/
def listSort (e : ZSort) : ZSort := .datatype ("List[" ++ e.show ++ "]")

/-- `ty_to_sort` (`src/smt/mod.rs:243-261`). `none` is a panic, and the sort of `EUReal` is that of `z3rro/src/eureal/datatype.rs:44-51`. -/
def tyToSort (sorts : Ident → Option ZSort) : STy → Option ZSort
  | .bool => some .bool
  | .int | .uint => some .int
  | .real | .ureal => some .real
  | .eureal => some (.datatype "EUReal")
  | .tuple => none
  | .list t => (tyToSort sorts t).map listSort
  | .domain d => sorts d

/-- `z3::FuncDecl`: Z3 identifies declarations of uninterpreted functions by name and signature (`src/smt/uninterpreted.rs:43-48`). -/
structure ZDecl where
  name : String
  dom : List ZSort
  range : ZSort
  deriving DecidableEq

/-- `Uninterpreteds` (`src/smt/uninterpreted.rs:16-23`) without the axioms, and the table of `RecFunFunctionEncoder` (`src/smt/funcs/recfun.rs:25-28`). -/
structure Tables where
  symbolizer : Symbolizer
  sorts : Ident → Option ZSort
  functions : Ident → Option ZDecl
  recs : Ident → Option ZDecl

/-- `Uninterpreteds::new` (`src/smt/uninterpreted.rs:26-34`) and `RecFunFunctionEncoder::new` (`src/smt/funcs/recfun.rs:31-39`). -/
def Tables.new : Tables := ⟨.new, fun _ => none, fun _ => none, fun _ => none⟩

/-- `Uninterpreteds::add_sort` (`src/smt/uninterpreted.rs:36-41`). `none` is the failed assertion. -/
def Tables.addSort (t : Tables) (d : Ident) : Option Tables :=
  let (n, sy) := t.symbolizer.get d
  match t.sorts d with
  | some _ => none
  | none => some { t with symbolizer := sy, sorts := Function.update t.sorts d (some (.uninterp n)) }

/-- `Uninterpreteds::add_function` (`src/smt/uninterpreted.rs:43-48`). `none` is the failed assertion. -/
def Tables.addFunction (t : Tables) (f : Ident) (dom : List ZSort) (range : ZSort) : Option Tables :=
  let (n, sy) := t.symbolizer.get f
  match t.functions f with
  | some _ => none
  | none => some { t with symbolizer := sy, functions := Function.update t.functions f (some ⟨n, dom, range⟩) }

/-- `RecFuncDecl::new` and its entry in the table (`src/smt/funcs/recfun.rs:105-114`). `none` is the failed assertion. The name is that of the identifier. -/
def Tables.addRec (t : Tables) (f : Ident) (dom : List ZSort) (range : ZSort) : Option Tables :=
  match t.recs f with
  | some _ => none
  | none => some { t with recs := Function.update t.recs f (some ⟨f.name, dom, range⟩) }

/-- `FuncDecl` (`src/ast/decl.rs:493-506`): what is relevant to signatures. -/
structure Fun where
  name : Ident
  inputs : List STy
  output : STy
  hasBody : Bool

/-- `DomainDecl` (`src/ast/decl.rs:445-449`) without its axioms. -/
structure Dom where
  name : Ident
  funcs : List Fun

/-- The function encoders (`src/smt/funcs/mod.rs`, with `fuel_functions` and `max_fuel` of `src/smt/funcs/fuel/mod.rs:30-44`). -/
inductive Enc where
  | axiomatic
  | recfun
  | mono (fuels : Ident → Bool) (max : Nat)
  | param (fuels : Ident → Bool)

/-- The sort of fuel (`z3rro/src/fuel.rs:16-41`). -/
def fuelSort : ZSort := .datatype "$Fuel"

/-- `FuelMonoFunctionEncoder::ident_with_fuel` (`src/smt/funcs/fuel/fuel_mono.rs:192-197`). `var` is `Span::variant` for encodings. -/
def withFuel (var : Nat → Nat) (f : Ident) (k : Nat) : Ident := ⟨f.name ++ "$" ++ toString k, var f.span⟩

/-- The identifiers that `translate_signature` declares (`src/smt/funcs/axiomatic.rs:104-112`, `src/smt/funcs/recfun.rs:96-116`,
`src/smt/funcs/fuel/fuel_mono.rs:105-125`, `src/smt/funcs/fuel/fuel_param.rs:132-144`). -/
def Enc.copies (var : Nat → Nat) (f : Ident) : Enc → List Ident
  | .mono fuels max => if fuels f then (List.range (max + 1)).map (withFuel var f) else [f]
  | _ => [f]

/-- `translate_func_domain` (`src/smt/funcs/util.rs:130-150`) with the parameter for fuel if `fuel` is set. -/
def funcDomain (sorts : Ident → Option ZSort) (f : Fun) (fuel : Bool) : Option (List ZSort) :=
  (f.inputs.mapM (tyToSort sorts)).map fun d => if fuel then fuelSort :: d else d

/-- All the functions in a list get the same signature (`src/smt/mod.rs:100-105`). -/
def Tables.addAll (t : Tables) (dom : List ZSort) (range : ZSort) : List Ident → Option Tables
  | [] => some t
  | f :: fs => (t.addFunction f dom range).bind fun t => t.addAll dom range fs

/-- `translate_signature` and the declaration of its result (`src/smt/mod.rs:98-105`, for the encoders see `Enc.copies`). -/
def Tables.addFun (var : Nat → Nat) (e : Enc) (t : Tables) (f : Fun) : Option Tables :=
  (tyToSort t.sorts f.output).bind fun range =>
    match e with
    | .axiomatic => (funcDomain t.sorts f false).bind fun dom => t.addAll dom range [f.name]
    | .recfun => (funcDomain t.sorts f false).bind fun dom =>
      if f.hasBody then t.addRec f.name dom range else t.addAll dom range [f.name]
    | .mono fuels max => (funcDomain t.sorts f false).bind fun dom => t.addAll dom range ((Enc.mono fuels max).copies var f.name)
    | .param fuels => (funcDomain t.sorts f (fuels f.name)).bind fun dom => t.addAll dom range [f.name]

/-- The first step of `init_dependencies` (`src/smt/mod.rs:78-86`). -/
def Tables.addSorts (t : Tables) : List Ident → Option Tables
  | [] => some t
  | d :: ds => (t.addSort d).bind fun t => t.addSorts ds

/-- The second step of `init_dependencies` (`src/smt/mod.rs:88-108`). -/
def Tables.addFuns (var : Nat → Nat) (e : Enc) (t : Tables) : List Fun → Option Tables
  | [] => some t
  | f :: fs => (t.addFun var e f).bind fun t => t.addFuns var e fs

/-- The domains that are declared (`src/smt/mod.rs:79-85`); `deps` is the set of dependencies, which is everything for `DepConfig::All`. -/
def neededSorts (deps : Ident → Bool) (ds : List Dom) : List Ident := (ds.map Dom.name).filter deps

/-- The functions that are declared (`src/smt/mod.rs:89-97`). -/
def neededFuns (deps : Ident → Bool) (ds : List Dom) : List Fun := (ds.flatMap Dom.funcs).filter fun f => deps f.name

/-- The first two steps of `SmtCtx::init_dependencies` (`src/smt/mod.rs:73-108`). -/
def initDeps (var : Nat → Nat) (e : Enc) (deps : Ident → Bool) (ds : List Dom) : Option Tables :=
  (Tables.new.addSorts (neededSorts deps ds)).bind fun t => t.addFuns var e (neededFuns deps ds)

/-- Where `translate_call` looks for the declaration of a copy of a function (`src/smt/uninterpreted.rs:54-60` or, for functions with bodies,
`src/smt/funcs/recfun.rs:143-162`). -/
def Tables.lookup (e : Enc) (t : Tables) (f : Fun) (x : Ident) : Option ZDecl :=
  match e with
  | .recfun => if f.hasBody then t.recs x else t.functions x
  | _ => t.functions x

/-- Does the function have a parameter for fuel? (`src/smt/funcs/fuel/fuel_param.rs:137-142`) -/
def Enc.fuelled (f : Ident) : Enc → Bool
  | .param fuels => fuels f
  | _ => false

/-- `LitDecl::new` (`z3rro/src/lit.rs:37-48`). -/
def litDecl (s : ZSort) : ZDecl := ⟨"$Lit" ++ s.show, [s], s⟩

/-- `fresh_symbol` (`z3rro/src/scope.rs:188-192`) for the value `i` of the counter. Z3's own fresh constants have such names too. -/
def freshSymbol (prefix' : String) (i : Nat) : String := prefix' ++ "!" ++ toString i

end Symb
end Caesar
