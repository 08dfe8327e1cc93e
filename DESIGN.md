# Design

Formal model of moves-rwth/caesar in Lean 4 (Mathlib for order theory and `ENNReal`).

## Trusted base

* Lean 4.33.0 kernel. No axioms of our own; each theorem depends on at most `propext`, `Classical.choice`, `Quot.sound`
  (table at the end).
* The definitions of the model and of the specifications. The model is tied to the code only by reading: definitions that model code cite
  file and lines in /repo and say where they simplify; definitions without a citation are specification or proof vocabulary.
* The SMT solver is a parameter (an oracle assumed sound where stated), never trusted silently.

## What is modelled

| Lean modules (`lean/Verif/…`) | Code in /repo |
|---|---|
| `Syntax`, `Semantics`, `Lattice`, `Spec` | `src/ast/{expr,stmt,ty,decl}.rs`; the documented semantics of HeyLo and HeyVL as an independent denotation |
| `Vcgen*`, `DistLemmas` | `src/vc/vcgen.rs`, `src/intrinsic/distributions.rs` |
| `Subst`, `FreeVars`, `ScopeMap`, `TyCtx` | `src/vc/subst.rs`, `src/ast/util.rs`, `src/scope_map.rs`, `src/tyctx.rs` (fresh names, clones) |
| `Opt/*` | `src/opt/{qelim,boolify,relational,constfold,unfolder}.rs`, `RemoveParens` of `src/opt/mod.rs` |
| `Driver/Lower` | `src/driver/{core_verify,quant_proof}.rs`: the order and options of the lowering steps |
| `Driver/Module` | verdicts and exit codes: `src/driver/{front,error}.rs`, `src/driver/commands/verify.rs`, `src/servers/cli.rs` |
| `Driver/Entailment` | `src/driver/commands/refinement.rs` |
| `Procs/*` | `src/procs/{spec_call,proc_verify,monotonicity}.rs` |
| `ProofRules/*` | `src/proof_rules/{induction,unroll,omega,ost,past,negations,util}.rs`, `src/proof_rules/calculus/*` , dispatch of `src/proof_rules/mod.rs` |
| `Slicing/*` | `src/slicing/{transform,selection,solver,util}.rs` |
| `Front/Casts` | casts and unification of `src/front/tycheck.rs` |
| `Infra/*` | `z3rro/src/prover.rs`, `src/depgraph.rs` |
| `Smt/{Orders,EUReal,Concrete,List}` | `z3rro/src/{orders,list,uint,ureal}.rs`, `z3rro/src/eureal/*.rs` |
| `ProofRules/Ast*` | `src/proof_rules/mciver_ast.rs`: the six generated procedures and the replacement block; parameters of only-used variables are left out |
| `Smt/Translate*` | `src/smt/translate_exprs.rs`, `src/smt/symbolic.rs`, `z3rro/src/scope.rs` |
| `Smt/Funcs*` | `src/smt/funcs/{axiomatic,util}.rs`, `src/smt/funcs/fuel/*.rs`, `init_dependencies` of `src/smt/mod.rs` |
| `Mc/*` | `src/mc/{mod,opsem,specs}.rs`, the data structures of `jani/src/{exprs,models}.rs`; the meaning of JANI models as specification |
| `Procs/CalcSound*` | no new code: shape of the verification task (`src/driver/quant_proof.rs`, `src/proof_rules/mod.rs`, `src/procs/spec_call.rs`) needed to join C27, C32, C33 |
| `Front/{Raw,Tycheck,Scoped,Reads,Ty*}` | `src/front/tycheck.rs`, `src/intrinsic/{list,distributions}.rs` (their type checks), parameters of annotations (`src/proof_rules/*.rs`, `src/slicing/selection.rs`). Types of declarations are types of values; calculus annotations of statements, `Unresolved` types and error messages are left out |
| `Front/{Resolve,Lexical,Res*,LexCongr,Module}` | `src/front/resolve.rs`, `src/scope_map.rs` (`find_map`), the methods `resolve` of annotations, `Module::resolve` and `Module::tycheck` (`src/driver/front.rs`). Type names are resolved already, quantified variables are `Fresh`, the list of global names is not extended |

`Props/Cxx.lean` contains the theorems of property Cxx, its specification where it needs one, and the non-vacuity examples.
| `Front/Uses.lean`, `Front/UsesReads.lean`, `Front/Locals.lean`, `Front/LocalsReads.lean`, `Front/Establish.lean`, `Front/EstablishProc.lean`, `Front/EstablishProg.lean` | no new code: what name resolution and type checking (`src/front/resolve.rs`, `src/front/tycheck.rs`, modelled for C59, C60) guarantee to the later phases |
| `src/front/parser/grammar.lalrpop`, `src/front/parser/precedence_update/` , `src/front/parser/mod.rs:120-221` | Grammars as productions over tokens (types of variables are part of a token), fingerprints, comparison, parser modes. Lexing, LALRPOP's generated automata and messages of errors are not modelled. |
| `src/ast/expr.rs:89-142`, `src/ast/stmt.rs:10-140`, `src/ast/decl.rs` (pretty printing), `src/pretty.rs` | `SimplePretty` on tokens; all layouts of separators. White space, line widths and colours are not modelled. |
| `src/proof_rules/mod.rs:288-314` | Direction of encodings in programs with negations. |
| `src/front/parser/mod.rs:255-312` | Removal of comments (`remove_comments`), on bytes and on UTF-8 texts. |
| `src/vc/explain.rs:93-182` | `VcExplanation`, `add_expr`, `explain_subst`; without grouping by spans, layout and printing. |
| `src/slicing/solver.rs:333-586`, `src/slicing/model.rs:12-118` | `slice_failing_binary_search`, `slice_sat_binary_search`, `SliceModel` and its results; the solver is a function from the number of the query and the bound to an answer; without timeouts, messages and spans. |
| `src/slicing/solver.rs:190-331`, `src/driver/smt_proof.rs:366-403` | The four methods for verifying slices and their options; the solvers' answers are parameters; without time limits, uninterpreted functions and messages. |
| `src/opt/egraph.rs` | The language, `expr_to_egg` and all rules; the library `egg` is replaced by the congruence closure of the rules, costs and extraction are left out. |
| `src/smt/pretty_model.rs`, `z3rro/src/model.rs` (`SmtEval`), `src/smt/symbolic.rs:150-166` | Evaluation and choice of what is printed; printed values instead of texts, no layout and no kinds; Z3's `Model::eval` is specified, not modelled. |
| `z3rro/src/model.rs` (`InstrumentedModel`, `SmtEval for Real`) | Marking, rollback and parsing; Z3 expressions as trees, Z3's text of numerals. |
| `src/smt/funcs/recfun.rs`, `mk_function_encoder` in `src/driver/smt_proof.rs` | `define-fun-rec` as the quantified equation of the SMT-LIB standard; the choice of the encoder and of the fuel functions. |
| `Span::to_lsp`, `Files::char_span` (`src/ast/diagnostic.rs`) | all of the conversion to ranges. `get_human_span_start` (lines and columns in error messages, computed by `ariadne`) is not modelled. |
| `src/servers/mod.rs`, `verify_files_main` with the calls of `Server` (`src/servers/lsp.rs`) | statuses of units, their combination, the file status. The texts of messages are not modelled. |
| `src/servers/lsp.rs` (the server and its loop), `Files` in `src/ast/diagnostic.rs` | the state, the messages, the task and its interleaving with the loop. The handshake and the (de)serialization of messages are not modelled; a failing `unwrap`, assertion or `?` in the loop ends the server. |
| `src/resource_limits.rs`, `run_prover_interruptibly` (`src/slicing/solver.rs`) | state, subscribers, channels, watchers; sequentially consistent atomic steps; a critical section with at most one access to shared data outside of the mutex is one step. Measuring memory and the timers of `tokio` are nondeterministic steps. Poisoned mutexes are not modelled. |
| `PrettyRational` (`z3rro/src/util.rs:171-242`) | all; the hash map is an association list, `BigRational`'s `Display` is modelled from its documentation (numerator, and the denominator unless it is one) |
| `src/smt/funcs/fuel/literals.rs` | all. Memory is a list of nodes that is never freed; operators and literal values are not part of the nodes; the recursion is bounded by the size of the expression |
| `Shared`, `RefEqShared` (`src/ast/shared.rs`) | `deref_mut`, `ref_count`, pointer equality; `Rc` is modelled by its documentation: the strong count is the number of pointers |
| `src/driver/commands/verify.rs:237-284`, `run_smt_prove_task` | the composition of the modelled stages up to the verdict. Not: Z3's simplifier before the query, probes, statistics, printing, functions with axioms, slicing for verification (C68) after the verdict |
| `src/driver/front.rs:265-279`, `CoreVerifyTask::from_source_unit` (dependencies) | names collected by the dependency graph from procedures, domains, raw statements; the functions and axioms translated. Not: types and sorts of domains, fuel functions (C72) |
| `Module::filter`, `check_calculus_rules` (`src/driver/front.rs:192-263`) | the selection by name, the check of all units. Not: regular expressions (a parameter), annotations that are not calculi |
| `run_smt_prove_task` for programs with domains (`src/driver/smt_proof.rs:133-172`) | encoder from the options, assertions of the dependencies, query, search. Not: `Lit` markers (C78), the probe for the solver type, sorts |
| explanations of procedures (`src/vc/explain.rs:183-357`) | `explain_decl_vc`, `explain_raw_vc`, `explain_annotated_while`, `explain_park_induction`, `explain_unroll`, `vcgen_unroll`, `explain_proc_call`, `fold_spec`. What the body of a loop has shown before an error is dropped together with the direction it reached; spans are places |
| `src/mc/run_storm.rs`, `src/driver/commands/model_check.rs:77-124`, `src/driver/front.rs:422-446` | `run_storm`, `find_property_result`, `storm_result_to_diagnostic`, `run_model_checking`, `write_to_jani_if_requested`. Errors of the file system and of the server, and output that is not UTF-8 are left out; digits in the abort message are ASCII; parsing of `BigRational` is taken from the crate `num`. |
| `src/mc/mod.rs:502-538,589-643` (calls and functions of JANI models) | `Mc/Translate.lean`, `Mc/FnSpec.lean` |
| `src/mc/specs.rs:140-237` | `mk_properties`: `reward`, `diverge_prob`, `can_diverge` and their meaning (`Mc/DivergeSpec.lean`) |
| `z3rro/src/array.rs`, `z3rro/src/list.rs:28-124`, `parse_big_int` | `BTreeMap` is a sorted list; the texts of arrays and lists whose parsing fails, and of values of other sorts, are arbitrary |
| `src/driver/smt_proof.rs:62-133,452-499`, `z3rro/src/smtlib.rs`, `z3rro/src/params.rs`, `z3rro/src/util.rs:83-120`, `src/version.rs:37-65`, `src/driver/item.rs:25-76` | `Driver/Smtlib.lean` | files with queries; `raco read` is an arbitrary function, creating files succeeds, Unix paths |
| `src/proof_rules/calculus/soundness_checker.rs` (records, labels, notes, map), `src/driver/smt_proof.rs:516-588` (texts) | `Driver/Verdict.lean` | spans are places in the body; the counterexample and the slices after the first line are left out |
| `src/servers/cli.rs` (`add_diagnostic`, `add_or_throw_diagnostic`, `exit_code`), `unless_fatal_error` of `src/servers/mod.rs`, `src/driver/error.rs`, order of the steps of `verify_files_main` | all; diagnostics are a kind, a topic and the number of a unit. The outcomes of phases other than the check for monotonicity and the traversal of the slicer are parameters |
| `EncodingVisitor::visit_stmt` of `src/proof_rules/mod.rs`, `one_arg` to `five_args`, `lit_u128`, `lit_rational` of `src/proof_rules/util.rs`, the beginnings of the methods `transform`, `push_annotation` and `lit_expr_to_symbol` of `src/slicing/selection.rs` | the order of visits, the checks, and what is read from the arguments; generated statements are not visited again |
| `emit_diagnostics` of `src/driver/smt_proof.rs`, `iter_results` and `to_diagnostics` of `src/slicing/model.rs` | all; the texts of values and of the rest of the model are parameters |
| `src/smt/symbols.rs`, `src/smt/uninterpreted.rs`, `ty_to_sort` and `init_dependencies` of `src/smt/mod.rs` | names and signatures; Z3's identity of declarations (by name and signature) and its printing of symbols are trusted as modelled |
| `Span::to_lsp`, `as_lsp_diagnostic` of `src/ast/diagnostic.rs`, `publish_diagnostics` and `add_diagnostic` of `src/servers/lsp.rs` | all of the conversion; sending does not fail, and the order of the notifications for different documents (a hash map) is that of a list |
| `QuantifierMeta` of `z3rro/src/quantifiers.rs` and its uses | the ids; weights and patterns are not modelled; Z3's use of `smt.mbqi.id` and `smt.ematching` is trusted as modelled |
| `StatsVisitor` of `src/ast/stats.rs` and `trace_expr_stats` | expressions; statements and the summary of the histogram are not modelled |
| `ExprExplanation` of `src/vc/explain.rs` and `remove_casts` | printing is any function of the expression; the lines of spans are given |

## What is not modelled

* Lexing, the generated LALR automata and the actions for error recovery, white space in printed output, resolution of type names, diagnostics, the LSP server, timing and resource limits, tracing. Outside of
  `Front`, expressions are typed by construction; C59 relates them to the trees that the type checker accepts.
* Spans, except where an identifier's identity depends on them (`Ident` has a span number).
* Z3 itself. Where a solver answers, it is a parameter of the theorem with an explicit assumption (soundness of `Unsat`).
  Triggers, weights, quantifier ids, tactics and the `Lit` marker have no meaning in an SMT model and are left out.
* Shared mutable expressions (`Rc` with in-place mutation) are values. Effects of sharing are modelled only where the code
  depends on it: the cache of the SMT translator is an arbitrary oracle.
* Panics are `none`. Machine integers (`usize`, `u128` literals) are natural numbers.
* In the JANI back end: the serialisation. `scooter`, `src/opt/egraph.rs`.

## Disagreements between code and property

Each is a theorem about the model (`…_not_full` or as named), with a concrete witness. None was confirmed by running the program,
which cannot be built here: they are claims about the code as read.

| Property | What the code does |
|---|---|
| C01, C02, C03 | `validate`/`covalidate` depend on the shape of the post: `validate` of `1` gives `∞` instead of `0` unless the post is syntactically a (co)implication (`src/vc/vcgen.rs:126-155`) |
| C44 (also C01) | `binom` uses the exponent `pb-pa` instead of `n-k` (`src/intrinsic/distributions.rs:258`; C44_binom_wrong); `ber` with total 0, empty `unif` and some `binom` parameters panic |
| C05 | directly nested parentheses `((x))` survive `RemoveParens` |
| C06, C10 | two copies of a user-written quantifier share their variable after quantifier elimination: a vc that is `0` everywhere becomes `∞` everywhere (C06), and such a program verifies with default options (C10_program_not_full) |
| C08, C10 | the relational optimisation is wrong on `Int`, and panics on `Bool` (C08_panics_on_booleans, C10_optRel_panics) |
| C12, C13, C50 | `5 - ∞ = 4` in the pair encoding; C50_division: `UReal` `x / 0` may be negative in an SMT model |
| C15 | nested lists are compared by raw datatype equality; elements of list variables have no invariant |
| C17 | the cached result of a check with assumptions is returned by the next check without them, so an unprovable obligation is reported as proved |
| C53 | in emulated mode `pop` recreates the solver without the timeout |
| C18, C39 | `havoc` is not counted as a modification: a loop that havocs `x` verifies against `?(x == 0)` |
| C19, C20 | `negate` in a loop body |
| C21 | `@unroll` ignores the terminator when it reports its approximation |
| C22 | ω-invariant conditions are asserted only for the current state; in a coproc, `Φ(0)` instead of `Φ(∞)` |
| C23 | `@past` accepts `while true {}`: its third condition is checked in a `proc`, which is the wrong direction |
| C24, C25 | a `proc` without `post`; repeated left-hand sides; permuted arguments in recursive calls |
| C28, C29, C30 | direction checks: variable initialisers, `negate`, direction threaded through branches, `conegate` backwards |
| C32 | `@wp proc` with `@invariant(0) while false {}` is declared an over-approximation; additive branches are ignored |
| C41 | slicing: the direction is threaded through the branches of a conditional |
| C42 | the constraint that one branch of a sliced choice stays enabled is assumed by the prover, so a slice without either branch is reported as verifying |
| C45 | constant folding: `0 - x` becomes `x`; on `Int`, the supremum of `0` and `x` becomes `x`, and their infimum panics |
| C48 | `Module::extend` returns the slice starting after the first new item |
| C51 | definitions strengthened to be total (the default) are contradictory for `f(x: UInt) = if x < 0 then f(x) + 1 else 0`; an infimum in a definition becomes one constant, so that `g(0) = g(1)` is provable |
| C52 | demonic choice in the body passes all side conditions of `@ost` |
| C55 | `caesar entailment` exits with code 0 although a pair has a counterexample: the result of the solver is ignored unless it is a timeout or an interrupt |
| C56 | `@ast`: the invariant is never checked at the loop entry, so `@ast(false, 1, v, 1, 1) while true {}` is accepted as a no-op (`C56_not_full`); `prob = 0` is not rejected, so `@ast(true, 1, v, 0, 1) while true {}` verifies (`C56_range_wrong`); the loop becomes an empty block without forgetting the modified variables, and is reported as exact (`C56_block_wrong`) |
| C57 | JANI export: `var x: UInt = 0` in the body of a loop only sets the initial value of the JANI variable, later iterations keep the old value (C57_not_full: a loop that never terminates gets expected reward 1); a failing `coassert ?(b)` in a `coproc` gives reward 0 instead of ∞ (C57_coassert_wrong); `--jani-skip-quant-pre` also drops quantitative `assume`s at the beginning of the body (C57_skip_wrong). Variables are identified by name only, so a variable called `reward`, or two variables of the same name in different scopes, clash (excluded by the hypothesis `ProcScoped`) |
| C58 | `calculus_checker.rs` compares the calculus of a callee only if the callee has one. An `@wp proc f` may call an unannotated `g` whose loop `@invariant(1) while true {}` is accepted with its default greatest fixed point meaning, so `f` verifies post 1, pre 1 in `@wp` although it never terminates (`C58_not_full`). Neither the calculus check nor the approximation analysis of `f` looks at `g`. |
| C59 | `len` accepts an argument of any type (`src/intrinsic/list.rs:150-164`), so that `len(5)` reaches the SMT translation, which panics (`C59_not_full`). Comparisons of string literals are accepted (`C59_not_strings`). Axioms of domains need not be Boolean: `walk_domain` (`src/ast/visit.rs:130-143`) does not call `visit_axiom`, which has the cast (`src/front/tycheck.rs:475-480`) (`C59_not_axioms`). A trigger with a `let` panics in `FreeVariableCollector` (`src/ast/util.rs:58-60`), which the model counts as rejection. |
| C60 | functions of a domain are declared when the domain is visited: a procedure before the domain cannot use them (`C60_not_late`), and if such a function has the name of a built-in one, the procedure silently refers to the built-in one (`C60_not_full`), although `visit_decls` says that resolution of declarations is not sequential; a parameter or procedure that is called `wp` hides the calculus, and `@wp` is then ignored (`C60_not_calculus`); `@ost` and `@ast` with a wrong number of arguments panic (`C60_not_panics`) |
| C61 | The type checker does not demand distinct targets of a call: `x, x = g()` is accepted (`C61_not_full`). Loops with annotations may havoc variables which the proof rules do not see as modified (`C61_not_locals`, see C18). |
| C62 | The type checker can treat bracketings differently: `i + r + s` with `i: Int`, `r: UReal`, `s: Real` passes the precedence check, is rejected with the tree of the new grammar and would be accepted with the old one (`C62_not_full`). An empty `@trigger()` is accepted by the grammar, but its action panics (`src/ast/expr.rs:348-350`); the model leaves it out of the grammar. |
| C63 | Several constructs are printed in a way that cannot be parsed, or that means something else: numbers with a decimal point as a fraction without parentheses (`x / 0.5` becomes `x / 5/10`, `C63_not_full`, `C63_fraction`), `let` as `(e)[x -> v]` (`C63_not_let`), calls as statements as ` = f()` (`C63_not_call`), functions as `fn f() -> T` (`C63_not_func`); calculus annotations of procedures are dropped (`C63_calculus`). A quantifier as left operand is printed without parentheses, which matters only for trees that do not come from the parser. |
| C64 | The encoding of loops uses the direction of the procedure, not the one at the loop: a `proc` with pre `∞`, post `0` and body `negate; @invariant(0) while false {}; conegate` verifies and passes the monotonicity check, although its value is `0` (`C64_verifies`, `C64_not_full`). |
| C65 | Comment markers in string literals are taken for comments: in `@error_msg("see http://x")` the rest of the line is removed, with the end of the literal (`C65_not_full`). The comment in the code that one character after a block comment is consumed is wrong, without effect: `/*a*//*b*/` are two comments. |
| C66 | With `explain_core_vc`, the simplified condition is the one that is proved. `y = 0; assert ?(y - 1 = 1)` verifies with explanations only, because constant folding rewrites `0 - 1` to `1` (`C66_not_full_verified`). `validate; y = 0; assume 2; assert 1` verifies without explanations only (`C66_not_full_validate`). `negate; …; conegate` in a procedure is rejected with explanations, because the direction is tracked wrongly backwards (`C66_not_full_negation`, see C30). |
| C67 | With `--slice-error-inconsistent`, `assert 0` is reported to verify if the solver answers unknown for the whole program and `unsat` for the empty slice, because the final query uses the largest rejected bound (`C67_wrong_proof`). With the default options, an unknown answer is recorded like `unsat`; a later model with fewer statements makes `assert!` in `add_result` panic (`C67_panic`). Models of unknown answers may exceed the bound and make another assertion fail (`C67_panic_inconsistent`). The search counts slice variables without a value as false, but the report takes them as true, so the reported slice is not smallest (`C67_not_minimal`). A counterexample that was found is lost if the solver does not find it again at the end (`C67_lost`). |
| C68 | The constraint that one branch of a choice stays enabled is only assumed, by all four methods: for `{} ⊔ {}` in a proc, both branches are reported as not necessary, and the program without them does not verify (`C68_not_for`). In the exists-forall encoding, the constraint even ends up below the negation, so that all slices that violate it count as verifying. |
| C69 | The e-graph rules `(a - b) + b => a` and `(a + b) - b => a` are wrong for truncated subtraction and `∞`; `a ⊔ 0 => a` is wrong for `Int` and `Real`; the translation drops casts and spans, so that different expressions become one term (`C69_not_addSub`, `C69_not_subAdd`, `C69_not_idSup`, `C69_not_casts`, `C69_not_names`). The result is only logged. With `--egraph`, quantifiers and substitutions run into `todo!()`. |
| C70 | `SmtEval for Bool` takes `true` if the solver's model leaves the value open, also for compound terms like the flag `is_infinite` of the verification condition. For `if b { 1 } else { ∞ }` and a model without `b`, the report says `b: true` and `∞`, but the value for `b = true` is `1` (`C70_not_full`). |
| C71 | `mark_expr` does not go into quantifiers, so constants that occur in them are listed as extra definitions (`C71_quantifiers_not_full`). `SmtEval for Real` cannot show integers from `2^63` on nor large negative fractions: their texts are not of the form `(/ n.0 d.0)` (`C71_integers_not_full`); `as_i64` for `Int` has the same limit. |
| C72 | The check in `mk_function_encoder` is inverted: `define-fun-rec` is an error without `--no-partial-strengthening` and accepted with it, contrary to the documentation (`options.rs:235-236`) and the error message (`C72_error`, `C72_error_not_full`). With it, definitions are strengthened although the flag says otherwise, so that a contradiction is provable from a true definition (`C72_sound_not_full`). |
| C73 | The range of an empty span, and that of an unexpected end of the file, starts at line 0, column 0, wherever the span is (`C73_empty_starts_at_zero`, `C73_eof_starts_at_zero`). Columns are counted in characters instead of UTF-16 code units (`C73_units_not_full`), and a lone carriage return is no line end (`C73_cr_not_full`). |
| C74 | In the language server, a raw unit (`--raw`) panics since it is never registered (`C74_raw_not_full`); a file without procedures to verify is never `done` (`C74_done_not_full`); a unit on which the solver ran out of time is shown as unknown, not as a timeout (`C74_timeout_not_full`); the combined status depends on the order of the units (`C74_order_not_full`), and the comment that a location never has both verified and refuted units is wrong for generated side conditions (`C74_refuted_side_condition`). |
| C75 | Requests other than `custom/verify` and `shutdown` are never answered (`C75_responses_not_full`). Old results of a document are published for its new version when another document is verified or closed (`C75_honest_not_full`). A document that is opened again with another language keeps its old text (`C75_text_not_full`). The server panics if the requested version is not stored, if an unknown document is closed, and for each response of the client (`C75_survives_not_full`, `C75_dead`). Each verification adds 13 built-in files that are never removed, and ids have 16 bits, so no session survives 5042 verifications (`C75_exhausted_13`). |
| C76 | Watchers are not told when the deadline passes: only the next `check_limits` or the hard timeout notices it (`C76_deadline_not_full`). The watcher can interrupt the solver before the check has begun, after which it has finished, so the check runs on unless the solver remembers the interrupt (`C76_interrupt_not_full`); it can also interrupt after the check (`C76_interrupt_late`). Cancelled work that does not stop before the hard timeout is reported as a timeout, although the stored error is the cancellation (`C76_await_not_full`). |
| C77 | "format this value exactly as a decimal. If the rational is not a terminating fraction, …": the expansion ends after five digits, so `1/128` is printed as `0.00781... (1/128)` although `0.0078125` is finite (`C77_not_full`). |
| C78 | "Maximality … if an expression is reported as literal, none of its children are reported": arguments of calls are (`C78_not_full`, intended by the comment in the code). In the documentation's example `a + 4 * b` there is no subexpression `a + 4`; `a` and `4` are reported (example in `Props/C78.lean`). `add_literal_vars` replaces the variables instead of adding some (`C78_add_not_full`). Without variables and functions nothing is reported (`C78_empty_not_full`). "An expression is literal if it always has the same value under all interpretations" is not true for functions which are declared computable (`C78_value_not_full`). |
| C79 | none; but a mutable access to a marked expression loses its mark, as the set of marks holds a pointer (`C79_marks_lost`). The code does not do this between the collection and the translation. |
| C80 | with `--opt-rel`, `assert ?(0 <= x)` on `Int` is reported to verify (`C80_not_full`). Also the translation of infinite differences (C12) and `--slice-error-inconsistent` (C67) lead to wrong verdicts; they are excluded in the partial theorems. |
| C81 | `Module::filter` drops procedures before the search for recursive procedures and before the dependency graph is built. `@wp` procedures calling each other are rejected without filter, but each is verified with a filter for it (`C81_not_sound`). A formula can contain a function that is not declared to the solver, which panics (`C81_not_declared`). |
* **C83**: with `--function-encoding axiomatic` and without `--no-partial-strengthening`, the unit `assert ?(f(0) = 1)` is reported to verify for `f(x: UInt): UInt = if x < 0 then f(x) + 1 else 0`, whose only meaning is the constant 0 (`C83_not_full`). The cause is that of C51.
* **C84**: the arguments of a call are substituted one after the other, so that `f(b, a)` in `proc f(a, b) pre a` is explained by `a` instead of `b` (`C84_not_full`); this is the defect of C24 at a second place. A call in an unrolled loop is a panic with `--explain-vc` (`cannot do vc generation for …`), although the procedure can be verified (`C84_not_total`). What is shown at the start may be above the precondition although the procedure does not verify, since neither the inductivity of invariants nor the postconditions of callees are taken into account (`C84_not_enough`).
* **C85**: in a report with several properties, a property without result gets the result of the next one (`C85_not_full`; Caesar asks for one property only). The time left is passed to Storm in whole seconds, so that less than a second is passed as `--timeout 0` (`C85_timeout_not_full`). A successful run without output is a panic (`C85_panics`).
* **C86**: recursive functions such as `func f(x: UInt): UInt = f(x)` are exported although the definition does not determine their value (`C86_not_full`).
* **C87**: the documented readings of `diverge_prob` and `can_diverge` (`website/docs/model-checking.md:301-306`) fail for models with demonic choices: the sum is only a lower bound in procs (`C87_not_full_sum`, `C87_sum_le`) and a diverging path does not make the minimum infinite (`C87_not_full_unbounded`). A failing `coassume` is exported as a self-loop and counts as divergence (`C87_coassume_wrong`). The sum is proved for models whose edges carry no rewards and whose exit reward is at most one (`OneBounded`); quantitative assertions and `reward` statements inside the body are not covered by the sum theorems.
* **C89** `to_file_name` removes `..` from paths, so the units of `../a.heyvl` and `a.heyvl` with equal procedure names are written to the same file and only the last one is kept (`C89_not_full`). Proved for paths made of names (`C89_files_partial`).
* **C90** Calls are not recorded as approximations, although the documentation lists them among the approximations (`website/docs/proof-rules/approximations.md:64,80,394-397`). A caller of a procedure with a weak specification is reported with "Counter-example to property found" although it satisfies its specification (`C90_not_full`). Proved for procedures without calls (`C90_refuted_partial`).
* **C91**: `--werr` is documented as "Treat warnings as errors" (`src/driver/commands/options.rs:30-32`). `add_diagnostic` and `unless_fatal_error` do not look for warnings: with `--werr`, every diagnostic is an error (`src/servers/cli.rs:71-73`, `src/servers/mod.rs:217-218`), also advice. So a program whose negations do not take turns (raw statements `conegate; negate`, which are proved without `--werr`) is rejected because it cannot be sliced, and every run in which Storm computes a value has exit code 1 (`C91_not_full`, `C91_exit`).
* **C92**: the literals of `@k_induction` and `@unroll` are big integers, and their conversion to `u128` is unwrapped (`src/proof_rules/util.rs:310-317`). `@unroll(340282366920938463463374607431768211456, 1) while true {}` passes the type checker and panics in the encoder (`C92_not_full`, `C92_panics`).
* **C93**: the nesting level is not increased in loops without annotations (`src/proof_rules/mod.rs:381-395`), so the visitor accepts `while true { @ost(1, 1, 1, 1) while true {} }` (`C93_not_full`). Such loops are refused by the generator of verification conditions (`src/vc/vcgen.rs:179`), so this is not unsound.
* **C94**: if the solver says unknown and still has a model, then the slice model of this model is used. The command line prints it under the title "program slice (based on unknown solver state)" (`src/smt/pretty_model.rs:253-256`, `C94_title`). `to_diagnostics` (`src/slicing/model.rs:121-143`) does not look at the consistency: in the editor, the statements get the error "This statement is part of the error", although no error was found (`C94_not_full`).
* **C95**: the comment in `src/smt/symbols.rs:22-26` says that the loop searches for an unused name because a user may have declared the name that is made from the counter. The loop only asks whether the identifier has a symbol already (`src/smt/symbols.rs:32`), which it never has. Two identifiers `f` and a third one `f_1` give the symbols `f`, `f_1`, `f_1` (`C95_not_symbols`). No accepted program can cause this today because the identifiers in the table are global and so have different names (`C95_symbols`, `C95_partial`). A function `Rplus_inf(): EUReal` has the name and the signature of a constructor of the datatype of extended reals (`z3rro/src/eureal/datatype.rs:44-51`); Z3 keeps the two apart in memory, but in a query file they have the same text (`C95_not_full`).
* **C96**: a label without a message is not sent to the editor (`message: label.msg.clone()?` in `src/ast/diagnostic.rs:558`). Undeclared names (`src/front/tycheck.rs:281`) and the results of Storm (`src/mc/run_storm.rs:31-44`) have such labels; there they are at the place of the diagnostic, so that nothing but the repetition is lost (`C96_not_full`). A diagnostic at the dummy span panics the server (`C96_dummy`).
* **C97**: the option `none` is documented as "Disable both e-matching and MBQI" and `e-matching` as "Only use E-matching" (`src/driver/commands/options.rs:136-142`). The quantifiers of infima and suprema are always instantiated by models (`src/smt/translate_exprs.rs:612-614`, `C97_extremum`, `C97_not_full`). So are the axioms of a user's function whose name starts with `mbqi_`, since its name is the start of the id (`C97_names`). Ids with a variant end with a line break because `writeln!` is used (`z3rro/src/quantifiers.rs:70`, `C97_line_break`). Quantifiers at the same offsets of different files have the same id (`C97_not_files`), and so have the axioms of a function `LitInt` and of the literal marker for integers (`C97_not_axioms`).
* **C98**: the comment on `StatsVisitor` (`src/ast/stats.rs:50-52`) says that it is mutable only out of laziness. `walk_expr` calls `deref_mut` on each node (`src/ast/visit.rs:174`), which copies shared nodes, so gathering statistics ends all sharing (`C98_unshared`, `C98_not_full`) and can need exponentially more memory (`C98_exponential`).
* **C99**: `shrink_to_block` is documented to remove "all steps that cannot fit into the surrounding block" (`src/vc/explain.rs:43-44`). It counts the steps before equal texts are merged by `to_strings`, so that it also removes steps that fit (`C99_not_full`). `remove_casts` replaces a cast by its operand and goes on with the operand's children, so of a cast of a cast one is left (`C99_not_casts`, `C99_half`). Casts of casts are made by proof rules: `past` casts its arguments to EUReal (`src/proof_rules/past.rs:142-143`), which may be casts to UReal themselves.

## Plan per property

* **C01** Generated verification conditions mean what the documentation says. Deep embedding of HeyVL/HeyLo (`Syntax`), denotational vc semantics (`Spec`), `vcgen` as a syntactic function; structural induction.
* **C02** validate and covalidate have their documented semantics. Code falls back to the wrong double negation unless the post is literally an (co)implication: negation witness plus `_partial` for the (co)implication shape.
* **C03** Programs without negation are monotone. Structural induction on statements over the denotation, transported to `vcgen` by C01.
* **C04** Eliminating explicit substitutions preserves meaning. `Subst` visitor modelled with its frame stack and the fresh-name state; induction on expressions with a simulation relation between states.
* **C05** Parenthesis removal is invisible. `RemoveParens` as in the code; value preservation by induction; the 'no parens left' half is false for nested parens (witness).
* **C06** Quantifier elimination preserves the verification verdict. `qelim` modelled rule by rule; preservation under the condition under which the code is right, and a witness for the shared-copy failure.
* **C07** Boolification preserves the truth value. All rules of boolify as a mutual function; induction.
* **C08** The relational optimisation preserves the truth value. Rules on typed comparisons; witness for Int; `_partial` for unsigned types.
* **C09** Unfolding with satisfiability pruning preserves the verdict. Unfolder with an arbitrary sound oracle as a parameter; induction.
* **C10** The Boolean verification condition is valid iff the program verifies. Composition of C04-C09.
* **C11** Lattice operators of the SMT layer satisfy their defining laws. orders.rs operators over an arbitrary bounded linear order; residuation and duality.
* **C12** Pair encoding of extended reals is faithful. Pair encoding over reals; refinement to `ENNReal`.
* **C13** The two EUReal encodings are equivalent. Both encodings; isomorphism; witness for subtraction and `_partial` for the other operators.
* **C14** SMT axioms for infimum and supremum characterise them uniquely. The emitted axioms as predicates over functions; existence and uniqueness of the solution.
* **C15** Lists behave like mathematical lists. Lists as (len, Int -> a).
* **C16** Prover push/pop is a proper stack. Prover as a state machine over operation histories; refinement to a stack of assertion levels.
* **C17** Prover answers are about the current query. Same machine with the result cache; witness of staleness; `_partial` for histories without assumptions.
* **C18** Invariant (k-induction) annotations are sound. Loop encodings as statement transformers; lattice k-induction and frame property of modified variables; witness for havoc.
* **C19** k-induction with larger k is at least as strong. Order-theoretic induction on k.
* **C20** @unroll encodes exactly k iterations of the loop function. Induction on k, with Kleene/Knaster-Tarski fixed points from Mathlib.
* **C21** Declared approximation of @unroll is right for every terminator. `get_approximation` as in the code; witness for a top terminator under lfp; `_partial` for extremal terminators.
* **C22** omega-invariants are sound lower bounds. Encoding as in omega.rs; witness; `_partial` for the state-independent case.
* **C23** @past certifies positive almost-sure termination. The three generated procedures; witness (non-terminating loop accepted).
* **C24** Procedure calls are sound with respect to specifications. Callee as arbitrary predicate transformer satisfying the spec; order reasoning.
* **C25** Arguments are passed simultaneously. Sequential substitution model; witness; `_partial` under non-overlap.
* **C26** A procedure verifies iff its precondition bounds its body. Equivalence through the residuation law.
* **C27** Modular verification of (mutually) recursive procedures is sound. Systems of procedures; coinduction on the product lattice.
* **C28** Calls respect the verification direction. Direction check visitor; witness for variable initialisers; `_partial` otherwise.
* **C29** The monotonicity check only accepts monotone procedures. MonotonicityVisitor; witness; `_partial`.
* **C30** Forward and backward direction tracking agree. Both functions; witness.
* **C31** Approximation kinds form the intended order and combination. Finite algebra lifted by a soundness relation over an arbitrary order.
* **C32** Approximation tracking is sound. Tracker over statement trees; witness for additive choice; `_partial`.
* **C33** Calculus annotations only admit sound inductions. Decision table against Knaster-Tarski fixed points.
* **C34** Recursive procedures are found exactly. Reachability in relations against the SCC based check.
* **C35** Dependency closure is complete and minimal. Worklist algorithm; invariant.
* **C36** Scopes restore bindings. State machine; invariant over histories.
* **C37** Fresh identifiers never collide. fresh_ident loop; infinitely many candidates.
* **C38** Collected free variables determine the value. Induction on expressions.
* **C39** Collected modified variables cover all effects of a statement. Induction on statements; witness for havoc.
* **C40** Slicing with all statements enabled is the identity. Slicing transformer; induction.
* **C41** Verified slices imply verified programs, failing slices imply failing programs. Slicing transformer with effect; induction with direction.
* **C42** Slice search only discards slices it may discard. Blocking constraints as predicates over sets; induction over search histories.
* **C43** The binary search for slices returns the optimum. Minimizer state machine; invariant.
* **C44** Built-in distributions are the documented ones. Distribution tables against closed formulas; witness for binom.
* **C45** Constant folding preserves values. Rules over expressions; witness for 0 - x.
* **C46** Reported concrete values compute like EUReal. Concrete numbers over rationals; refinement to ENNReal.
* **C47** The exit verdict is true only if every obligation was proved. Fold over unit results.
* **C48** Extending a module reports all new items. List model; witness.
* **C49** Implicit casts are coherent. Finite relation plus value embeddings.
* **C50** SMT translation is faithful. SMT term language with pair encoding; induction.
* **C51** Fuel encodings of functions are conservative. Axiom schemas as predicates over interpretations.
* **C52** The optional-stopping rule establishes a lower bound. Encoding modelled; what can be proved is stated as `_partial`.
* **C53** The prover's timeout holds for every check. Prover state machine; witness in emulated mode.
* **C54** A slice is the program without the disabled statements. Specification `Cut` (deletion of statements and branches); induction over the slicing visitor.
* **C55** The entailment command. Parameter mapping, generated task and loop over pairs modelled; specification `Proc.Entails`; the exit code claim is refuted.
* **C56** The `@ast` rule. All six generated procedures modelled; shown equivalent to the documented conditions; the termination theorem of McIver, Morgan, Kaminski and Katoen proved for sub-probability kernels, including nested loops. The claim that the loop may be replaced by the empty block is refuted.
* **C57** The JANI export. `proc_to_model` modelled with the statement and expression translation; JANI models given a meaning by history-dependent schedulers, without reference to HeyVL; value iteration shown optimal; the translation simulated in both directions by induction on statements. Refuted in general (declarations in loops, Boolean `coassert`, `--jani-skip-quant-pre`), proved without these.
* **C58** Soundness of the calculi across procedures. Joins the models of C20–C24, C27, C32, C33, C34, C40, C50: calculus and recursion checks, loop encodings, approximation analysis, spec calls, vc generation (and the lowering and SMT translation in `C58_solver_partial`). By induction on the call graph for acyclic parts and by fixed point induction for wlp recursion. Refuted in full: the checks skip callees without annotation. Proved when every procedure with a body that is reachable by calls is annotated.
* **C59** Soundness of the type checker. Models untyped trees (`Front/Raw`), `Tycheck` for expressions, statements and procedures (`Front/Tycheck`), what the parser and name resolution guarantee (`Front/Scoped`), and the relation between annotated and typed trees (`Front/Reads`). By mutual induction on trees; the declarations of `let` variables are threaded through. Refuted in full because of `len`; proved for programs that apply `len` to lists and have no string literals in expressions. Second visits, uniqueness, erasure, assignment targets and preconditions are proved for all inputs.
* **C60** Name resolution is lexical scoping. `Resolve` modelled as a visitor over a stack of scopes and a table of declarations; specification `lexModule` by environments. Simulation between scopes and environments by induction over trees; the claim is refuted for functions that are used before their domain, for names that hide calculi and for `@ost` with a wrong number of arguments.
* **C61** The front end establishes what verification assumes about programs. Scopes of trees are related to the variables which typed programs read, change and declare (`Front/Uses*.lean`, `Front/Locals*.lean`), unit by unit along both phases (`Front/Establish*.lean`). Refuted in full (targets of calls may coincide, havoc in loops); proved without these two; `C61_program_partial` derives the assumptions of C58, `C61_verified_partial` joins both into a statement about files as written.
* **C62** The check for changed precedences. Both grammars are modelled as productions over tokens (`Parse/Grammar.lean`); a recursive descent shows that they are unambiguous (`Parse/Descent*.lean`). The fingerprints (`Parse/Check.lean`) of trees of the same tokens are equal exactly if the trees are equal up to associativity (`Parse/Reassoc.lean`); everything the new grammar derives is derived by the old one, with the same statements (`Parse/OldTotal.lean`). Resolution and type checking do not depend on the bracketing, except for acceptance (`Parse/ResAssoc.lean`, `Parse/Meaning.lean`). Acceptance, rejection, errors and absence of panics are characterised exactly; that the type checker accepts both trees or neither is refuted.
* **C63** Printing and parsing again. The pretty printer is modelled on tokens, as a relation where the layout matters (`Parse/Print.lean`). What is printed is derived by both grammars, and the trees are the same up to parentheses (`Parse/PrintParse.lean`), so the check of C62 accepts. The full claim is refuted; the theorem excludes exactly the constructs that are printed wrongly, and each of them has its own refutation.
* **C64** Loops between negations. The soundness proof of C18 is extended to programs with negations: the direction changes at each negation as in the monotonicity check, and bounds behind a statement become bounds before it in the direction there (`ProofRules/NegLoops.lean`). Proved if every loop is in a context of the direction of the procedure; refuted otherwise.
* **C65** Comments. The loops of `remove_comments` as one recursion on bytes with a mode; the specification is a relation that says where comments begin and end, with string literals as parameter, proved total and functional (`Parse/Comments.lean`). Proved: the code meets the specification if and only if the specified result contains no comment marker, which only string literals can; length and positions are kept; no comments are left; idempotent; texts are mapped to texts (UTF-8).
* **C66** Explanations. `Vcgen` with explanations as a computation with a log (`Vc/Explain.lean`): assignments and sampling go through substitution (C04), unfolding (C09) and constant folding (C45), and the result is the condition that is verified. The specification gives the expectation at a place of a program by the documented semantics (`Vc/ExplainSpec.lean`). Proved by induction over programs with a class of expressions that is closed under substitution, unfolding and folding and safe for folding (`Opt/FoldTame.lean`); refuted outside.
* **C67** Failing slices. The loop of `slice_sat_binary_search` with the minimizer of C43, the reset of the solver afterwards, the cached answer of the prover and `SliceModel` are modelled as functions of a list of solver answers (`Slicing/Failing.lean`). The specification says when a slice of a program fails (with the slice transformation of C40 and the semantics of C17) and which programs result from deleting statements (C54). Invariants of the loop by induction over the fuel, termination by the measure of C43 (`Slicing/FailingSound.lean`); refuted for unknown answers and incomplete models.
* **C68** Verifying slices. The four methods are modelled on top of the subset exploration (C42) and the binary search (C67) (`Slicing/Verifying.lean`). The specification says when a slice of a program verifies, with the slice transformation of C40 and the semantics of C17, and asks for a program that results from deleting statements (C54). Monotonicity of slices, which C42 assumes, is proved by induction over programs: the slices for two choices of the slice variables are programs without slice variables that compare (`Slicing/Compare.lean`). Refuted for angelic choices in procs.
* **C69** E-graph rules. The language, the translation and the 44 rules are transcribed (`Opt/Egraph.lean`); what the library can identify is the congruence closure of the instances of the rules. Proof: truth values become 0 and ∞, so that terms without types have values in `ℝ≥0∞`; the translation keeps values and the rules are identities there. Refuted by two rules, by a third one for signed numbers, by the missing casts and by the missing spans.
* **C70** Report of a counterexample. `Smt/Report.lean` models the evaluation of variables, slices and both verification conditions in the solver's model, whose answers are specified by `SolverModel.For` (values without model completion are right in all SMT models that agree with the partial model). Proof: from the completed model, give the unassigned Boolean symbols the value true, the new symbols of the second translation the values forced by their constraints (consistency from C50), and take the state of that model. Finite values are always right. Refuted for `∞`: a Boolean without a value counts as true.
* **C71** Extra definitions and numbers. `Smt/Accessed.lean` models the marking of constants with the set of visited expressions, the rollback, and the parsing of Z3's text of a rational number. Proof: induction over expressions with the invariant that all visited expressions smaller than the current one are covered; induction over decimal texts. Refuted: constants inside of quantifiers are listed anyway, and large integers and negative fractions give an error.
* **C72** Options about functions. `Smt/Funcs.lean` gets a fourth encoder for `define-fun-rec`; `Driver/FuncEncoder.lean` models `mk_function_encoder` with the fuel functions taken from the dependency graph. Proof: soundness from C51, recursion from the exactness of the dependency closure (C35). Refuted: `define-fun-rec` is rejected exactly without the flag, and accepted with it, where it makes a contradiction provable.
* **C73** Ranges. `Servers/Position.lean` models the conversion of spans of bytes to spans of characters and to ranges, with the definition of positions of the protocol as specification. Proof by induction over the text. Proved for non-empty spans in plain lines; refuted for empty spans, for characters of two UTF-16 units and for lone carriage returns.
* **C74** Statuses. `Servers/Status.lean` models the statuses of units, their combination per location, and the calls of the verifier. Proof: the combination by induction over the list; the request by an invariant of the loop over the units. Refuted: raw units, files without tasks, timeouts, and the independence of the order.
* **C75** Sessions. `Servers/Lsp.lean` models the server as a transition system: the loop, the queue of notifications, the task and the stored documents and reports. The verifier is a parameter (any relation between a text and calls). Specification: a server that handles one message after the other. Proof: refinement by an invariant of the reachable states; responses, texts, published results and survival by induction over the sequential sessions.
* **C76** Resource limits. `Driver/Limits.lean` models the atomic state, the mutex, the channels and the program points of any number of threads as a transition system (one atomic access or one send per step). Proof: an invariant of the reachable states (`LimitsLemmas.lean`) and an invariant about the history (`LimitsHistory.lean`). Refuted: the deadline alone notifies nobody, the interrupt can come before or after the check, and the hard timeout can be reported for work that was cancelled.
* **C77** Printed rationals. `Smt/PrettyRational.lean` models the loop of the long division with the map of remainders; the specification is a decimal (sign, digits, repeated digits) with its partial values. Proof: invariant of the loop, long division, periodicity of remainders. Refuted: finite decimals with more than five digits are cut off.
* **C78** Literal expressions. `Smt/Shared.lean` models memory with reference-counted nodes, `Smt/Literals.lean` the mutable visitor that clones shared nodes (`Rc::make_mut`) and marks addresses. Proof: the visit of a node yields a tree with its own nodes (`LiteralsLemmas.lean`: induction with an invariant about pointers), so marks are positions; then positions are compared with the specification. Refuted: the documented maximality (arguments of calls), adding of variables, and that literal values are the same in all interpretations.
* **C79** Shared nodes. In the memory model of C78: copy-on-write isolates changes. Proof: no path from a held pointer leads to a node without other pointers.
* **C80** The unit as a whole. `Driver/RunUnit.lean` runs the models of the stages after each other, and builds the query in the order of the code. Proof: the lowering is local (`Driver/LowerLocal.lean`), slicing keeps the conditions of the later stages (`Slicing/TransformKeeps.lean`), truthfulness about SMT models is carried back through the translation to truthfulness about slices (C50), then C67. A perfect solver exists, so verdicts do. Whole programs by C58. Refuted: the relational optimisation on signed numbers (C08) reaches the verdict.
* **C82** `Driver/Deps.lean`: the names collected from source units, the dependencies of a unit, and what is translated. Proof: no stage invents a call of a function that was not in the unit or in the specification of a called procedure (`Opt/RelationalCalls.lean`, `Driver/DepsLemmas.lean`), and reachability in the dependency graph (C35) is closed under the calls of specifications, definitions and axioms.
* **C81** `Driver/Filter.lean`: the filter, and the checks on the units which are left. Proof: the calculus check is characterised by cycles of calls among the kept procedures (C33, C34); recursion and dependencies only shrink, and do not shrink if the filter keeps cycles resp. all dependencies. Refuted otherwise: recursion through a procedure that is not selected is not found, so two filtered runs together verify procedures which never terminate; functions of the specification of a procedure which is not selected are not declared.
* **C83** `Driver/RunFuncs.lean`: the unit of C80 with a query that ranges over the meanings of the function symbols and contains the assertions about functions. Proof: an answer `unsat` holds for the meaning at hand, because its assertions are true (C51); the verdict rests only on these answers (C67). Refuted in general by the strengthened definition of a function on naturals (C51).
* **C84** `Vc/Explain.lean`: the model of C66 (`vcgenX`) gets the procedure table, calls, loops with invariants and unrolled loops; `told`, `toldAt` and `preCtx` in `Vc/ExplainSpec.lean` say what is to be told. Induction on statements with a case for the bodies of annotated loops. The bound compares with `encodeLoops` and `specCall`, by induction and monotonicity.
* **C85** `Mc/RunStorm.lean`: `run_storm`, the reading of Storm's output and the loop of the command, with texts as lists of characters and Storm as an arbitrary function of the command and the file. `Mc/StormSpec.lean` specifies reports (sections for properties, lines), how arguments are read, and exploration of a part of the states. Proved: which result is found in any report (`C85_found`), the own one if there is one or the section is the last one, in particular for `reward` alone (`C85_own_partial`, `C85_reward`), values only for successful runs, numbers and relations, settings and timeout, panics, lower bounds for limited exploration in the MDP semantics of C57, diagnostics and files for all the units.
* **C86** `Mc/Translate.lean` models `translate_call` and `translate_fns`; `Mc/FnSpec.lean` specifies which functions are needed and when a function can be exported. The worklist loop is proved exact by induction with an invariant on the functions that are done; the number of iterations is bounded by the number of declarations (never exhausted). Equality of meanings by induction on the depth of calls, with JANI meanings patched outside of the functions already treated; the value of an automaton is shown to depend only on the functions called in it. C57 is extended to programs with functions by this.
* **C87** `Mc/DivergeSpec.lean` models the properties built in `src/mc/specs.rs:140-237` and gives their meaning by schedulers and infinite paths, and the semantics with greatest fixed points below a bound. The probability of staying away from the sink is the limit of the optimal n-step probabilities (`Mc/Diverge.lean`); these are compared with the program by induction on statements with greatest fixed points (`Mc/Liberal.lean`, `Mc/DivergeSound.lean`); paths that stay forever exist iff arbitrarily long ones do, by König's lemma.
* **C88** Values of the solver as terms (numerals, constant arrays, stores, values of the datatype of lists); `from_dynamic`, the texts of arrays and lists and `parse_big_int` as functions. The text is characterised by `select` of the theory of arrays, by induction on the chain of stores; unique readability by induction on the nesting depth.
* **C89** `PrefixWriter`, `SmtParams`, `Smtlib`, `to_file_name` and `write_smtlib` as functions on texts; files as a map from paths to texts. The specification reads a text by a scanner with four modes (code, comment, string, quoted symbol); the header is characterised by induction on characters, independently of the pieces it is written in. The formatter `raco read` is an arbitrary function.
* **C90** the records of the approximation analysis with their places (in place of spans), the notes, labels, texts and errors as functions, the soundness map as an association list. The specification finds statements by their place and says which of them approximate; the records are shown to be these by induction on the body. The meaning of the texts is reduced to C32 (refutations, without calls) and C58 (proofs)
* **C91** Errors, warnings and `--werr`. `Driver/Warnings.lean` models the command line server, the places where diagnostics are given, and the main function as steps over the state of the server; the outcomes of the other phases are parameters. The specification lists the diagnostics that are due (`Due`), in terms of the order of the negations of a body. Proofs compose three predicates over steps (what is needed for exit code 0, what is printed, what is the same with `--werr`). Refuted: advice is an error with `--werr`, too.
* **C92** The arguments of annotations. `ProofRules/Unpack.lean` models the visitor and the beginnings of the methods `transform` on the trees that the model of the type checker (`Front/Tycheck.lean`) returns. The specification (`written`) reads the rules from the source. Proofs: what the type checker guarantees for a call (`Typed`), by induction over it; the visitor calls each rule once and in order, by induction over bodies. Refuted: numbers of 2^128 and more panic.
* **C93** Terminators end the body. With the model of C92. The specification (`Placed`) splits the body at its last statement. Proofs by induction over bodies: at a positive nesting level no terminator is accepted, and after a terminator nothing is accepted; conversely, the error needs a terminator elsewhere. Refuted for loops without annotations, which do not count as nesting.
* **C94** What the editor is told about a result. `Servers/Emit.lean` models `emit_diagnostics`, the diagnostics of slice models, and which slice models come with which results; texts of values are parameters. Proofs by cases over the results and by filtering lists. Refuted: for unknown results with a model, statements are shown as part of an error.
* **C95** Each symbol of a query stands for one declaration. `Smt/Symbols.lean` models the table of symbols, `ty_to_sort` with the names of list sorts as Z3 prints them, and the first two steps of `init_dependencies` with the signatures of the four encoders. Proof: an invariant of the tables (symbols are names, counters are 0 for new names), and injectivity of the constructed names (`$`, `!`, brackets and quotes do not occur in names of programs). Refuted: the table of symbols alone (`f`, `f`, `f_1`), and texts different from those of constructors.
* **C96** What the editor shows for a diagnostic. `Servers/Diag.lean` models the conversion of diagnostics, with the ranges of C73, and the publication after each added diagnostic. Specification: a relation `Shown` between labels and related information, and `Presents` for a whole diagnostic. Proofs by induction over the labels and the table of files, and over the added diagnostics. Refuted: labels without messages are not shown.
* **C97** Quantifier instantiation. `Driver/Instantiation.lean` models the ids of all quantifiers of queries and Z3's use of `smt.mbqi.id` and `smt.ematching`, with the parameters of C89. Proof: look-up in the list of parameters, and an analysis of which ids can start with the prefix; the last characters of ids tell the kinds apart, and the texts of spans are read back. Refuted: infima and suprema are always instantiated by models, a function's name can start with the prefix, ids do not have the file.
* **C98** Statistics. `Smt/Stats.lean` models the visitor on the memory of shared nodes of C78. Proof: an invariant of the visit for all memories (the result is a tree of its own, other expressions stay). Refuted: the visitor is mutable, so it copies shared nodes; for a chain of `n + 1` nodes there are at least `2 ^ (n + 1) - 1` afterwards.
* **C99** Steps of explanations. `Vc/Layout.lean` models `remove_casts`, `to_strings` and `shrink_to_block`, for any printing. Proof: structural induction on expressions; the merged texts of a suffix are a suffix of the merged texts. Refuted: steps are dropped before equal ones are merged, so fewer are shown than fit; of casts of casts, half are left.

## Axioms of each theorem

As printed by `#print axioms` for the theorems in MANIFEST.json (prefix `Caesar.` omitted).

**propext, Classical.choice, Quot.sound**: `C01_vcgen_meaning_partial`, `C01_vcgen_meaning_no_validate`, `C01_vcgen_succeeds`, `C01_not_full`, `C02_validate_impl_partial`, `C02_covalidate_coimpl_partial`, `C02_validate_fallback`, `C02_covalidate_fallback`, `C02_spec_is_double_negation`, `C02_not_full`, `C03_vcgen_monotone_partial`, `C03_vcgen_monotone_no_validate`, `C03_semantics_monotone`, `C03_negation_needed`, `C03_not_full`, `C04_apply_subst`, `C04_substitution_lemma`, `C05_value_preserved`, `C05_not_full`, `C06_qelim_preserves_verdict_partial`, `C06_qelim_shadow`, `C06_not_full`, `C07_terminates`, `C07_value_preserved`, `C07_verdict`, `C08_relational_preserves_value_partial`, `C08_relational_succeeds`, `C08_not_full`, `C08_panics_on_booleans`, `C09_unfold`, `C09_value`, `C09_needs_sound`, `C10_lowering_partial`, `C10_program_partial`, `C10_not_full`, `C10_program_not_full`, `C10_optRel_unsound`, `C10_optRel_panics`, `Smt.C11_implication_residual`, `Smt.C11_coimplication_residual`, `Smt.C11_compare_implication`, `Smt.C11_duality`, `Smt.C12_operators_partial`, `Smt.C12_constants`, `Smt.C12_representation`, `Smt.C12_sub_partial`, `Smt.C12_sub_not_full`, `Smt.C12_sub_not_full_infinite`, `Smt.C13_inverse`, `Smt.C13_operators_partial`, `Smt.C13_sub_partial`, `Smt.C13_sub_not_full`, `Smt.C14_infimum_unique`, `Smt.C14_infimum_exists`, `Smt.C14_supremum_unique`, `Smt.C14_supremum_exists`, `Smt.C14_pair`, `Smt.C14_data`, `Smt.C14_bool`, `Smt.C15_operators`, `Smt.C15_eq_partial`, `Smt.C15_nested_not_full`, `Infra.C16_assertions`, `Infra.C16_no_panic`, `Infra.C16_level`, `Infra.C16_provables`, `Infra.C16_modes_agree`, `Infra.C17_assuming`, `Infra.C17_answers_partial`, `Infra.C17_not_full`, `C18_induction_sound_partial`, `C18_proc_verified_partial`, `C18_coproc_verified_partial`, `C18_not_full`, `C19_larger_k_partial`, `C19_provable_partial`, `C19_not_full`, `C20_iterations`, `C20_vcgen_iterations`, `C20_under_lfp_partial`, `C20_over_gfp_partial`, `C20_not_full`, `C21_terminators_partial`, `C21_literals_partial`, `C21_one_bounded`, `C21_not_full`, `C21_one_not_over`, `C22_lower_partial`, `C22_positive_partial`, `C22_upper_partial`, `C22_not_full`, `C22_program_not_full`, `C22_up_not_full`, `C23_not_full`, `C23_checked`, `C23_bound`, `C23_partial`, `C24_partial`, `C24_otherCallee`, `C24_not_full`, `C24_swap`, `C24_repeated_lhs`, `C25_partial`, `C25_otherCallee`, `C25_not_full`, `C26_proc`, `C26_coproc`, `C26_lowerBounds`, `C27_partial`, `C27_loops_partial`, `C27_not_full`, `recSem_fixed`, `C29_partial`, `C29_noNeg`, `C29_not_full`, `C29_branches`, `C32_tracking_partial`, `C32_proc_verdict_partial`, `C32_coproc_verdict_partial`, `C32_not_full`, `C32_wp_proc_refutations`, `C32_additive_wrong`, `C32_record_partial`, `C34_contract`, `Infra.C35_closure`, `Infra.C35_recursive`, `C37_terminates`, `C37_history_fresh`, `C37_clones_distinct`, `C37_counter_advances`, `C38_collected_determine_value`, `C38_collects_exactly_free`, `C38_panics_iff_subst`, `C39_reported_partial`, `C39_undeclared_partial`, `C39_not_full`, `C40_enabled`, `C40_constraints`, `C41_not_full`, `C41_verify_partial`, `C41_error_partial`, `C41_counterexample`, `C41_verified`, `Slicing.C42_not_full`, `Slicing.C42_returned_verifies_partial`, `Slicing.C42_blockUnsat_partial`, `Slicing.C42_blockSat_partial`, `Slicing.C42_size_partial`, `Slicing.C42_subset_partial`, `Slicing.C43_search`, `Slicing.C43_optimum`, `Slicing.C43_enabled`, `C44_sample_expected_value_partial`, `C44_weights_sum_to_one`, `C44_pmf_sum_to_one`, `C44_ber_zero_panics`, `C44_unif_empty_panics`, `C44_binom_panics`, `C44_binom_wrong`, `C45_not_full`, `C45_not_full_sup`, `C45_not_full_inf`, `C45_constFold_partial`, `Smt.C46_add`, `Smt.C46_mul`, `Smt.C46_sub`, `Smt.C46_le`, `Smt.C46_eq`, `Smt.C46_one`, `Smt.C46_symbolic`, `C49_casts`, `C49_try_cast`, `C49_try_unify`, `Smt.C50_translation_partial`, `Smt.C50_states_partial`, `Smt.C50_models_partial`, `Smt.C50_validity_partial`, `Smt.C50_not_full`, `Smt.C50_division_not_full`, `Smt.C51_facts_partial`, `Smt.C51_sound_partial`, `Smt.C51_not_full`, `Smt.C51_partial_encoding_not_full`, `C52_not_full`, `C52_stochastic_partial`, `C52_call_partial`, `C54_slice`, `C55_mapping`, `C55_task`, `C55_pair_partial`, `C55_no_pre_partial`, `C55_formula_partial`, `C55_exit_partial`, `C55_proved_exit_zero`, `C56_conditions`, `C56_terminates`, `C56_block_partial`, `C56_not_full`, `C56_range_wrong`, `C56_block_wrong`, `Mc.C57_not_full`, `Mc.C57_coassert_wrong`, `Mc.C57_skip_wrong`, `Mc.C57_value_partial`, `Mc.C57_restrict`, `Mc.C57_dtmc`, `Mc.C57_expr`, `Mc.value_eq_limit`, `C58_not_full`, `C58_partial`, `C58_solver_partial`, `Front.C59_expr_partial`, `Front.C59_stmts_partial`, `Front.C59_partial`, `Front.C59_unique`, `Front.C59_recheck`, `Front.C60_not_full`, `Front.C60_front_partial`, `Front.C61_partial`, `Front.C61_program_partial`, `Front.C61_verified_partial`, `Front.C61_not_full`, `Front.C61_not_locals`, `Parse.C62_unique`, `Parse.C62_old`, `Parse.C62_accepted`, `Parse.C62_changed`, `Parse.C62_syntaxError`, `Parse.C62_no_panic`, `Parse.C62_meaning_partial`, `Parse.C62_not_full`, `Parse.C63_partial`, `Parse.C63_calculus_partial`, `Parse.C63_not_full`, `Parse.C63_not_let`, `Parse.C63_not_call`, `Parse.C63_not_func`, `Parse.C63_calculus`, `C64_partial`, `C64_proc_partial`, `C64_not_full`, `C64_verifies`, `C65_exact_partial`, `C65_spec`, `C65_partial`, `C65_not_full`, `C65_positions_partial`, `C65_clean_partial`, `C65_text_partial`, `C66_partial`, `C66_result_partial`, `C66_not_full`, `C66_not_full_verified`, `C66_not_full_negation`, `C66_not_full_validate`, `C67_proof_partial`, `C67_verified_partial`, `C67_slice`, `C67_program`, `C67_original_partial`, `C67_sure_partial`, `C67_not_full`, `C67_wrong_proof`, `C67_panic`, `C67_panic_inconsistent`, `C67_not_minimal`, `C67_lost`, `C68_mono`, `C68_core_partial`, `C68_existsForall_partial`, `C68_existsForall_ends`, `C68_enumerate_partial`, `C68_smallest_partial`, `C68_minimal_partial`, `C68_partial`, `C68_not_for`, `C68_not_full`, `C69_partial`, `C69_rules`, `C69_not_addSub`, `C69_not_subAdd`, `C69_not_idSup`, `C69_not_casts`, `C69_not_names`, `C69_not_full`, `Smt.C70_partial`, `Smt.C70_listed`, `Smt.C70_not_full`, `Smt.C71_listed_partial`, `Smt.C71_numbers`, `Smt.C71_fractions`, `Smt.C71_integers_not_full`, `Smt.C71_not_full`, `Smt.C72_sound_partial`, `Smt.C72_unconstrained_partial`, `Smt.C72_error`, `Smt.C72_error_not_full`, `Smt.C72_sound_not_full`, `Smt.C72_not_full`, `Smt.C72_recursion`, `Smt.C72_fuel_defined`, `Smt.C72_options`, `Position.C73_range_partial`, `Position.C73_empty_starts_at_zero`, `Position.C73_eof_starts_at_zero`, `Server.C74_request_partial`, `Server.C75_text_partial`, `Server.C75_honest_partial`, `Server.C75_honest_one`, `Server.C75_exhausted`, `Server.C75_exhausted_13`, `Server.C75_survives_partial`, `Limits.C76_agree`, `Limits.C76_timely`, `Limits.C76_origin`, `Limits.C76_no_block`, `Limits.C76_notifies`, `Limits.C76_delivered`, `Limits.C76_stops`, `Limits.C76_message_stops`, `Limits.C76_on_stop`, `Limits.C76_unsubscribed`, `Limits.C76_await_partial`, `Smt.C77_decimal`, `Smt.C77_fraction`, `Smt.C77_not_full`, `Smt.C77_terminating_partial`, `Smt.Sharing.C78_collect`, `Smt.Sharing.C78_not_full`, `Smt.Sharing.C78_value`, `Smt.Sharing.C78_value_not_full`, `Smt.Sharing.C79_isolated`, `Smt.Sharing.C79_changed`, `Smt.Sharing.C79_clone`, `C80_not_full`, `C80_verdict_partial`, `C80_counterexample_partial`, `C80_original_partial`, `C80_sure_partial`, `C80_program_partial`, `C80_decides_partial`, `C80_exit_partial`, `C80_ticks`, `C80_sampling`, `Driver.C81_not_errors`, `Driver.C81_deps`, `Driver.C81_declared_partial`, `Driver.C81_not_declared`, `Driver.C81_sound_partial`, `Driver.C81_not_sound`, `Driver.C82_formula`, `Driver.C82_closed`, `Driver.C82_axioms`, `Driver.C82_all_declared`, `Driver.C83_partial`, `Driver.C83_program_partial`, `Driver.C83_not_full`, `C84_partial`, `C84_verified_partial`, `C84_not_full`, `C84_not_total`, `C84_not_enough`, `C84_loop_error`, `Mc.C85_found`, `Mc.C85_own_partial`, `Mc.C85_reward`, `Mc.C85_success`, `Mc.C85_read`, `Mc.C85_number`, `Mc.C85_text`, `Mc.C85_not_full`, `Mc.C85_settings`, `Mc.C85_timeout_not_full`, `Mc.C85_no_panic`, `Mc.C85_panics`, `Mc.C85_state_limit`, `Mc.C85_all_states`, `Mc.C85_operator`, `Mc.C85_units`, `Mc.C85_nothing`, `Mc.C85_files`, `Mc.C85_failures`, `Mc.C86_exported`, `Mc.C86_fails`, `Mc.C86_types`, `Mc.C86_not_full`, `Mc.C86_meaning_partial`, `Mc.C86_local`, `Mc.C87_meaning`, `Mc.C87_le_sum`, `Mc.C87_sum_le`, `Mc.C87_sum_partial`, `Mc.C87_terminating`, `Mc.C87_unbounded_partial`, `Mc.C87_not_full_sum`, `Mc.C87_not_full_unbounded`, `Mc.C87_coassume_wrong`, `Smt.C88_text`, `Smt.C88_array`, `Smt.C88_determines`, `Smt.C88_negative`, `Driver.Query.C89_header`, `Driver.Query.C89_comments`, `Driver.Query.C89_header_lines`, `Driver.Query.C89_options`, `Driver.Query.C89_query`, `Driver.Query.C89_first`, `Driver.Query.C89_z3_options`, `Driver.Query.C89_inside`, `Driver.Query.C89_files_partial`, `Driver.Query.C89_stopped`, `Driver.Query.C89_no_directory`, `Driver.Query.C89_not_full`, `Driver.Verdict.C90_records`, `Driver.Verdict.C90_sound`, `Driver.Verdict.C90_same`, `Driver.Verdict.C90_text`, `Driver.Verdict.C90_error`, `Driver.Verdict.C90_labels`, `Driver.Verdict.C90_blame`, `Driver.Verdict.C90_status`, `Driver.Verdict.C90_map`, `Driver.Verdict.C90_generated`, `Driver.Verdict.C90_refuted_partial`, `Driver.Verdict.C90_verified_partial`, `Driver.Verdict.C90_not_full`, `Driver.Verdict.C90_line`, `Driver.Verdict.C90_raw`, `Driver.Verdict.C90_note`, `Driver.Verdict.C90_messages`, `Driver.Warnings.C91_exit`, `Driver.Warnings.C91_partial`, `Driver.Warnings.C91_not_full`, `Driver.Warnings.C91_stricter`, `Driver.Warnings.C91_sliced`, `Driver.Warnings.C91_printed`, `Driver.Warnings.C91_results`, `Driver.Warnings.C91_stops`, `Driver.Warnings.C91_reason`, `ProofRules.Unpack.C92_partial`, `ProofRules.Unpack.C92_written`, `ProofRules.Unpack.C92_fine`, `ProofRules.Unpack.C92_loops`, `ProofRules.Unpack.C92_panics`, `ProofRules.Unpack.C92_not_full`, `ProofRules.Unpack.C93_partial`, `ProofRules.Unpack.C93_refused`, `ProofRules.Unpack.C93_raw`, `ProofRules.Unpack.C93_not_full`, `Server.C94_title`, `C95_partial`, `C95_sorts`, `C95_domains`, `C95_fresh`, `C95_lits`, `C95_not_full`, `Diag.C96_partial`, `Diag.C96_panics`, `Diag.C96_dummy`, `Diag.C96_shown`, `Diag.C96_publish`, `Diag.C96_total`, `Diag.C96_not_full`, `Driver.Query.C97_partial`, `Driver.Query.C97_exact`, `Driver.Query.C97_ematching`, `Driver.Query.C97_extremum`, `Driver.Query.C97_names`, `Driver.Query.C97_ids`, `Driver.Query.C97_origin`, `Driver.Query.C97_line_break`, `Driver.Query.C97_not_full`, `Driver.Query.C97_not_files`, `Driver.Query.C97_not_axioms`, `Smt.Sharing.C98_partial`, `Smt.Sharing.C98_unshared`, `Smt.Sharing.C98_exponential`, `Smt.Sharing.C98_not_full`, `Layout.C99_partial`, `Layout.C99_distinct`, `Layout.C99_casts`, `Layout.C99_not_casts`

**propext, Quot.sound**: `C05_no_parens_partial`, `Smt.C15_representation`, `Smt.C15_variables_not_full`, `C19_invariant_eq_one`, `C20_encodes`, `C26_total`, `C28_partial`, `C28_complete`, `C28_not_full`, `C28_negated`, `C30_forwards`, `C30_roundtrip_partial`, `C30_not_full`, `C30_not_full_accepts`, `C31_order`, `C34_recursive_iff`, `C34_blame`, `C36_refines_spec`, `C37_fresh_not_declared`, `Driver.C47_exit_code`, `Driver.C47_failure`, `Driver.C48_extend_partial`, `Infra.C53_native_partial`, `C55_not_full`, `C55_odd`, `Front.C59_not_full`, `Front.C59_not_strings`, `Front.C59_not_axioms`, `Front.C59_strip`, `Front.C59_targets`, `Front.C59_pre`, `Front.C60_not_late`, `Front.C60_not_calculus`, `Front.C60_not_panics`, `Front.C60_leak`, `Front.C60_partial`, `Front.C60_declared`, `Parse.C63_fraction`, `Smt.C72_calls`, `Server.C74_shown`, `Server.C74_order_partial`, `Server.C75_sequential`, `Server.C75_active`, `Server.C75_dead`, `Server.C75_responses_partial`, `Limits.C76_first`, `Smt.Sharing.C78_maximal_partial`, `Smt.Sharing.C78_empty_not_full`, `Smt.Sharing.C79_copy`, `Smt.Sharing.C79_marks_lost`, `Driver.C81_selects`, `Driver.C81_check`, `Driver.C81_accepts`, `Driver.C81_errors_partial`, `Mc.C85_timeout`, `Mc.C86_found`, `ProofRules.Unpack.C92_message`, `Server.C94_partial`, `Server.C94_status`, `Server.C94_unit`, `Server.C94_labels`, `Server.C94_total`, `Server.C94_not_full`, `C95_symbols`, `Layout.C99_no_block`, `Layout.C99_half`, `Layout.C99_not_full`

**propext**: `Infra.C17_not_full_proof`, `C31_glb`, `C31_combine`, `C31_infimum`, `C31_infimum_sound`, `C31_soundness_exact`, `C33_allowed_iff`, `C33_loop_rules`, `C33_loop_rules_context`, `C33_default`, `C33_recursion`, `Infra.C35_total`, `C36_push_pop_restores`, `C36_wrong_token_panics`, `C37_undeclared_fresh_may_collide`, `C49_partial_order`, `C49_cast_exists`, `Infra.C53_not_full`, `Smt.C71_quantifiers_not_full`, `Position.C73_defined`, `Position.C73_empty_not_full`, `Position.C73_units_not_full`, `Position.C73_cr_not_full`, `Position.C73_not_full`, `Server.C74_order_not_full`, `Server.C74_refuted_side_condition`, `Server.C74_raw_not_full`, `Server.C74_done_not_full`, `Server.C74_timeout_not_full`, `Server.C74_not_full`, `Server.C75_sequential_possible`, `Server.C75_responses_not_full`, `Server.C75_text_not_full`, `Server.C75_honest_not_full`, `Server.C75_survives_not_full`, `Limits.C76_deadline_not_full`, `Limits.C76_interrupt_not_full`, `Limits.C76_interrupt_late`, `Limits.C76_await_not_full`, `Smt.Sharing.C78_add_not_full`, `Smt.Sharing.C78_add_partial`, `C95_stable`, `C95_not_symbols`

**none**: `Smt.C11_compare`, `Smt.C11_cocompare`, `Smt.C11_negate`, `Smt.C11_conegate`, `Smt.C11_negate_values`, `Smt.C11_conegate_values`, `Smt.C15_select_store`, `Smt.C15_congruence`, `C31_algebra`, `C31_soundness`, `C36_new`, `Driver.C48_not_full`
