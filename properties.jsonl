{"id": "C01", "title": "Generated verification conditions mean what the documentation says", "statement": "For a HeyVL statement list without loops and procedure calls, evaluating the expression returned by verification-condition generation for a postexpectation in a state gives exactly the documented vc semantics of the statements (assert = infimum, assume = Goedel implication, havoc = infimum over the variable, tick = addition, weigh = multiplication, choices = min/max/sum, probabilistic assignment = expected value, ...).", "quantifier": "all loop-free call-free statements, all postexpectations, all program states, both directions", "why_tests_cant": "statements and states are unbounded; a test fixes one program and relies on Z3 to compare two formulas", "anchors": ["src/vc/vcgen.rs:vcgen_stmts", "src/vc/vcgen.rs:vcgen_stmt", "src/vc/vcgen.rs:generate_assign"]}
{"id": "C02", "title": "validate and covalidate have their documented semantics", "statement": "`validate` maps an expectation to infinity where it is infinite and to 0 everywhere else (conegate; conegate), `covalidate` maps it to 0 where it is 0 and to infinity everywhere else (negate; negate).", "quantifier": "all postexpectations and states", "why_tests_cant": "the test-suite only uses validate directly in front of assume, where the code takes a special path", "anchors": ["src/vc/vcgen.rs:126-155", "website/docs/heyvl/statements.md:208-218"]}
{"id": "C03", "title": "Programs without negation are monotone", "statement": "If a program contains no negate/conegate statement then a larger postexpectation yields a larger (or equal) generated verification condition in every state.", "quantifier": "all statements without negations, all pairs of ordered postexpectations, all states", "why_tests_cant": "relational property over pairs of expectations", "anchors": ["src/vc/vcgen.rs:vcgen_stmt", "website/docs/heyvl/statements.md"]}
{"id": "C04", "title": "Eliminating explicit substitutions preserves meaning", "statement": "Applying all pending substitutions to an expression (as done before every SMT query) yields an expression without substitution nodes which has the same value as the original expression in every state; bound variables are renamed so that no variable is captured.", "quantifier": "all expressions with arbitrarily nested quantifiers and substitutions, all states, all initial sets of declared identifiers", "why_tests_cant": "capture needs particular nestings of binders and substitutions; the space is infinite", "anchors": ["src/vc/subst.rs:Subst", "src/vc/subst.rs:push_quant", "src/vc/subst.rs:apply_subst"]}
{"id": "C05", "title": "Parenthesis removal is invisible", "statement": "Removing parentheses never changes the value of an expression, and afterwards no parenthesis node is left (so later rewrites see through parentheses).", "quantifier": "all expressions and states", "why_tests_cant": "unbounded nesting", "anchors": ["src/opt/mod.rs:RemoveParens"]}
{"id": "C06", "title": "Quantifier elimination preserves the verification verdict", "statement": "Eliminating infima (for proc) / suprema (for coproc) from the verification condition yields a condition that holds in all states iff the original one holds in all states.", "quantifier": "all expressions, all states, both directions", "why_tests_cant": "depends on how a quantified sub-expression is duplicated in the enclosing expression; infinitely many shapes", "anchors": ["src/opt/qelim.rs:qelim_inf", "src/opt/qelim.rs:qelim_sup", "src/opt/qelim.rs:elim_quant"]}
{"id": "C07", "title": "Boolification preserves the truth value", "statement": "Rewriting quantitative (in)equalities with bottom/top into Boolean formulas gives a formula with the same truth value in every state.", "quantifier": "all expressions and states", "why_tests_cant": "infinitely many expressions; rewrites interact under nesting", "anchors": ["src/opt/boolify.rs:visit_expr", "src/opt/boolify.rs:visit_leq", "src/opt/boolify.rs:visit_eq_top", "src/opt/boolify.rs:visit_eq_bot"]}
{"id": "C08", "title": "The relational optimisation preserves the truth value", "statement": "The opt_rel rewrite of comparisons (max/min/addition/literals) gives a formula with the same truth value in every state for every operand type.", "quantifier": "all expressions of all numeric types and all states", "why_tests_cant": "integer/real operands with negative values are not part of the test-suite", "anchors": ["src/opt/relational.rs:relational_leq"]}
{"id": "C09", "title": "Unfolding with satisfiability pruning preserves the verdict", "statement": "Lazy unfolding replaces sub-expressions the solver reports unreachable; whatever a sound but incomplete solver answers, the unfolded expression has the same value in every state.", "quantifier": "all expressions, all states, all answer sequences of a sound (possibly unknown-returning) satisfiability oracle", "why_tests_cant": "answers of the solver (timeouts) are nondeterministic", "anchors": ["src/opt/unfolder.rs:visit_expr", "src/opt/unfolder.rs:with_sat", "src/opt/unfolder.rs:with_nonbot", "src/opt/unfolder.rs:with_nontop"]}
{"id": "C10", "title": "The Boolean verification condition is valid iff the program verifies", "statement": "The final Boolean formula handed to the prover is true in all states iff for all states vc >= top (proc) resp. vc <= bottom (coproc) holds for the generated verification condition.", "quantifier": "all expressions, all states, both directions, all option combinations of unfold/qelim/boolify/relational", "why_tests_cant": "composition of all rewrites", "anchors": ["src/driver/quant_proof.rs:lower_quant_prove_task", "src/driver/quant_proof.rs:into_bool_vc"]}
{"id": "C11", "title": "Lattice operators of the SMT layer satisfy their defining laws", "statement": "implication/co-implication of the SMT layer are the residuals (adjoints) of inf/sup, compare/cocompare their 0/infinity-valued versions, negations are implication with bottom / co-implication with top, and every operator is dual to its co-version under order reversal.", "quantifier": "all values of all linearly ordered SMT lattice types", "why_tests_cant": "unit tests instantiate laws for single types by asking Z3", "anchors": ["z3rro/src/orders.rs"]}
{"id": "C12", "title": "Pair encoding of extended reals is faithful", "statement": "Every operation of the default (is_infinite, number) encoding of EUReal computes the representation of the mathematical result for all representations of its operands, keeps the invariant number >= 0, and equality/ordering agree with the mathematical ones.", "quantifier": "all pairs of representable values", "why_tests_cant": "infinite domain; several representations of infinity", "anchors": ["z3rro/src/eureal/pair.rs"]}
{"id": "C13", "title": "The two EUReal encodings are equivalent", "statement": "The pair and the datatype encoding are isomorphic: conversions are mutually inverse up to SMT equality and every operator commutes with the conversions.", "quantifier": "all values, all operators", "why_tests_cant": "existing tests cover add, mul, lattice operators but not subtraction", "anchors": ["z3rro/src/eureal/mod.rs", "z3rro/src/eureal/datatype.rs", "z3rro/src/eureal/pair.rs"]}
{"id": "C14", "title": "SMT axioms for infimum and supremum characterise them uniquely", "statement": "The constraints emitted for an infimum (supremum) over a scope are satisfiable for every body and their only solution is the greatest lower bound (least upper bound) of the body over all values satisfying the scope constraints.", "quantifier": "all bodies, all scopes, all complete linear orders of EUReal", "why_tests_cant": "needs quantification over all functions", "anchors": ["z3rro/src/orders.rs:infimum", "z3rro/src/orders.rs:supremum", "z3rro/src/scope.rs"]}
{"id": "C15", "title": "Lists behave like mathematical lists", "statement": "select after store returns the stored value at the index and old values elsewhere, store does not change the length, and SMT equality of lists is exactly equality of the element sequences and an equivalence relation respected by select at valid indices and by store.", "quantifier": "all lists, indices, element values", "why_tests_cant": "infinite domain; out of bounds contents must not matter", "anchors": ["z3rro/src/list.rs", "src/intrinsic/list.rs"]}
{"id": "C16", "title": "Prover push/pop is a proper stack", "statement": "After any sequence of balanced push, add and pop operations the set of assertions seen by the solver is exactly the assertions added at the still open levels, in native and emulated incremental mode alike.", "quantifier": "all histories of push/pop/add operations in both modes", "why_tests_cant": "histories are unbounded", "anchors": ["z3rro/src/prover.rs:push", "z3rro/src/prover.rs:pop"]}
{"id": "C17", "title": "Prover answers are about the current query", "statement": "Every answer of check_sat/check_proof/check_proof_assuming is a correct answer (for a correct solver) for the assertions currently on the stack together with the assumptions passed to that very call.", "quantifier": "all histories of operations", "why_tests_cant": "stale cached answers only show for particular histories", "anchors": ["z3rro/src/prover.rs:check_proof_assuming", "z3rro/src/prover.rs:check_sat", "z3rro/src/prover.rs:cache_result"]}
{"id": "C18", "title": "Invariant (k-induction) annotations are sound", "statement": "If a proc whose loop is annotated with @invariant / @k_induction verifies, the loop's encoding is a lower bound on the greatest-fixed-point semantics of the loop (dually: an upper bound of the least fixed point in a coproc).", "quantifier": "all loops, guards, bodies, invariants, k >= 1, postexpectations, states", "why_tests_cant": "needs all executions of all loops", "anchors": ["src/proof_rules/induction.rs", "src/proof_rules/util.rs:encode_iter", "src/proof_rules/util.rs:encode_extend", "src/ast/util.rs:ModifiedVariableCollector"]}
{"id": "C19", "title": "k-induction with larger k is at least as strong", "statement": "Whatever is provable with @k_induction(k, I) is provable with @k_induction(k+1, I): the verification condition does not get worse when k grows.", "quantifier": "all k, loops, invariants, states", "why_tests_cant": "induction over k", "anchors": ["src/proof_rules/induction.rs:transform_k_induction", "src/proof_rules/util.rs:encode_extend"]}
{"id": "C20", "title": "@unroll encodes exactly k iterations of the loop function", "statement": "The encoding of @unroll(k, t) has the value of the k-fold application of the loop's characteristic function to t; with t = bottom (top) this under-approximates the least (over-approximates the greatest) fixed point, monotonically in k.", "quantifier": "all k, loops, terminators, postexpectations, states", "why_tests_cant": "unbounded k", "anchors": ["src/proof_rules/unroll.rs", "src/proof_rules/util.rs:encode_unroll"]}
{"id": "C21", "title": "Declared approximation of @unroll is right for every terminator", "statement": "When the soundness analysis classifies an unrolled loop as an under- (over-) approximation of its fixed point semantics, its value is in fact below (above) the fixed point.", "quantifier": "all terminators accepted by the type checker, all loops and states", "why_tests_cant": "depends on combination of calculus and terminator", "anchors": ["src/proof_rules/unroll.rs:get_approximation"]}
{"id": "C22", "title": "omega-invariants are sound lower bounds", "statement": "If a loop annotated with @omega_invariant(n, I) verifies, the encoded value is a lower bound of the least fixed point of the loop function (dually in coprocs).", "quantifier": "all loops, families I_n, postexpectations and initial states", "why_tests_cant": "needs induction over n and all reachable states", "anchors": ["src/proof_rules/omega.rs", "website/docs/proof-rules/omega-invariants.md"]}
{"id": "C23", "title": "@past certifies positive almost-sure termination", "statement": "If all three side conditions generated by @past verify, then I decreases in expectation by at least eps in every iteration, so the expected number of iterations is finite.", "quantifier": "all loops, I, eps, K", "why_tests_cant": "a wrong inequality direction accepts non-terminating loops which no positive test exhibits", "anchors": ["src/proof_rules/past.rs", "website/docs/proof-rules/past.md"]}
{"id": "C24", "title": "Procedure calls are sound with respect to specifications", "statement": "Replacing a call by its specification (assert pre, havoc outputs, compare post) never yields more than running any callee body that satisfies the specification (never less, for coprocs).", "quantifier": "all specifications, arguments, callee bodies satisfying the spec, continuations, states", "why_tests_cant": "quantifies over all callee implementations", "anchors": ["src/procs/spec_call.rs:encode_assign"]}
{"id": "C25", "title": "Arguments are passed simultaneously", "statement": "In the encoding of a call, formal parameters in pre- and postconditions are replaced by the actual arguments all at once, so permuted arguments (e.g. a recursive call swap(b, a)) get the specification instantiated correctly.", "quantifier": "all parameter lists, arguments, specifications", "why_tests_cant": "only fails for overlapping parameter and argument names", "anchors": ["src/procs/spec_call.rs:subst", "src/vc/explain.rs:explain_proc_call"]}
{"id": "C26", "title": "A procedure verifies iff its precondition bounds its body", "statement": "The statement list generated for a proc is verified (vc = top everywhere) iff in every state the infimum of the preconditions is below vc[body](infimum of the postconditions); dually for coprocs.", "quantifier": "all bodies, specifications and states", "why_tests_cant": "equivalence of two infinite families of formulas", "anchors": ["src/procs/proc_verify.rs:encode_proc_verify", "src/procs/proc_verify.rs:to_direction_lower_bounds"]}
{"id": "C27", "title": "Modular verification of (mutually) recursive procedures is sound", "statement": "If every proc of a program verifies with calls replaced by specifications, then every proc satisfies its specification with respect to the greatest-fixed-point (wlp) semantics of the program where calls run the real bodies; dually for coprocs and least fixed points.", "quantifier": "all finite systems of mutually recursive procedures, all states, all recursion depths", "why_tests_cant": "recursion depth is unbounded", "anchors": ["src/procs/spec_call.rs", "src/procs/proc_verify.rs", "src/proof_rules/calculus/recursion_checker.rs"]}
{"id": "C28", "title": "Calls respect the verification direction", "statement": "Every call to a coproc inside a proc (or vice versa) that is executed in the wrong direction is rejected before verification.", "quantifier": "all programs", "why_tests_cant": "needs all syntactic positions of calls", "anchors": ["src/procs/spec_call.rs:visit_expr", "src/procs/spec_call.rs:visit_stmt"]}
{"id": "C29", "title": "The monotonicity check only accepts monotone procedures", "statement": "If a procedure body passes the monotonicity check then its verification condition is monotone in the postexpectation.", "quantifier": "all procedure bodies, all ordered pairs of postexpectations", "why_tests_cant": "relational property over all bodies", "anchors": ["src/procs/monotonicity.rs:MonotonicityVisitor"]}
{"id": "C30", "title": "Forward and backward direction tracking agree", "statement": "Walking backwards over a statement from the direction computed by walking forwards returns the original direction, for every statement for which the forward walk succeeds.", "quantifier": "all directions and statement sequences", "why_tests_cant": "histories of negations", "anchors": ["src/proof_rules/negations.rs:DirectionTracker"]}
{"id": "C31", "title": "Approximation kinds form the intended order and combination", "statement": "Combining approximation kinds (&) is commutative, associative, idempotent and returns a kind that soundly describes any value bounded as described by both operands; infimum over the branches of a statement is the combination of all of them.", "quantifier": "all kinds and all lists of branches", "why_tests_cant": "unbounded lists", "anchors": ["src/proof_rules/calculus/soundness_checker.rs:ApproximationKind"]}
{"id": "C32", "title": "Approximation tracking is sound", "statement": "If the analysis says the (annotated) program is an under-approximation then the verification condition of the encoded program is a lower bound of the original program's fixed-point semantics (over: upper bound, exact: equal).", "quantifier": "all programs with nested annotated loops, all postexpectations and states", "why_tests_cant": "programs are unbounded trees", "anchors": ["src/proof_rules/calculus/soundness_checker.rs:track_approximation_in_statement"]}
{"id": "C33", "title": "Calculus annotations only admit sound inductions", "statement": "Induction-based loop rules and recursion are accepted under @wp/@wlp/@ert exactly for the combinations of calculus and direction in which induction proves the bound for that calculus' fixed point.", "quantifier": "all calculi and directions, all monotone loop functions", "why_tests_cant": "soundness ranges over all loop functions", "anchors": ["src/intrinsic/annotations.rs:is_induction_allowed", "src/intrinsic/annotations.rs:to_fixed_point_semantics_kind", "src/proof_rules/calculus/calculus_checker.rs"]}
{"id": "C34", "title": "Recursive procedures are found exactly", "statement": "A procedure is reported as (mutually) recursive iff there is a non-empty chain of calls from it back to itself.", "quantifier": "all call graphs", "why_tests_cant": "cycles of any length", "anchors": ["src/proof_rules/calculus/recursion_checker.rs:find_recursive_procs"]}
{"id": "C35", "title": "Dependency closure is complete and minimal", "statement": "The set of declarations kept for a verification unit contains every declaration reachable through (mutual) dependencies from the unit, and nothing else.", "quantifier": "all dependency graphs", "why_tests_cant": "graphs of any size", "anchors": ["src/depgraph.rs:get_reachable"]}
{"id": "C36", "title": "Scopes restore bindings", "statement": "After any balanced sequence of push/insert/remove/pop on a scope map, all lookups answer as before the push.", "quantifier": "all operation histories", "why_tests_cant": "histories are unbounded", "anchors": ["src/scope_map.rs:ScopeMap"]}
{"id": "C37", "title": "Fresh identifiers never collide", "statement": "Every identifier produced as fresh is different from all identifiers declared so far, and generation always terminates.", "quantifier": "all sets of declared identifiers incl. ones with numeric suffixes, all histories", "why_tests_cant": "user names may collide with generated ones in infinitely many ways", "anchors": ["src/tyctx.rs:fresh_ident", "src/tyctx.rs:clone_var"]}
{"id": "C38", "title": "Collected free variables determine the value", "statement": "Two states that agree on the collected free variables of an expression give it the same value, and quantified/substituted variables are not reported unless they also occur free.", "quantifier": "all expressions and pairs of states", "why_tests_cant": "relational, unbounded", "anchors": ["src/ast/util.rs:FreeVariableCollector"]}
{"id": "C39", "title": "Collected modified variables cover all effects of a statement", "statement": "The verification condition of a statement only depends on the postexpectation in states that agree with the initial state on all variables not reported as modified.", "quantifier": "all statements, postexpectations and states", "why_tests_cant": "relational, unbounded", "anchors": ["src/ast/util.rs:ModifiedVariableCollector"]}
{"id": "C40", "title": "Slicing with all statements enabled is the identity", "statement": "When all slice variables are true, the transformed program has the same verification condition as the original program.", "quantifier": "all programs, selections, postexpectations, states", "why_tests_cant": "all programs", "anchors": ["src/slicing/transform.rs:StmtSliceVisitor"]}
{"id": "C41", "title": "Verified slices imply verified programs, failing slices imply failing programs", "statement": "If only concordant statements are disabled, verification of the sliced program implies verification of the original program; if only discordant statements are disabled, a counterexample of the sliced program is a counterexample of the original.", "quantifier": "all programs accepted by direction tracking, all subsets of slice variables, all states", "why_tests_cant": "exponentially many slices of infinitely many programs", "anchors": ["src/slicing/transform.rs", "src/slicing/selection.rs:SliceEffect"]}
{"id": "C42", "title": "Slice search only discards slices it may discard", "statement": "Blocking after a verifying (failing) slice only removes slices which are known to verify (fail) by monotonicity in the extensive/reductive statements, and the returned slice does verify.", "quantifier": "all monotone status functions, all search histories", "why_tests_cant": "search order depends on the SAT solver", "anchors": ["src/slicing/util.rs:SubsetExploration", "src/slicing/solver.rs:slice_unsat_search"]}
{"id": "C43", "title": "The binary search for slices returns the optimum", "statement": "For a monotone acceptance test without unknown answers the partial minimizer terminates with exactly the smallest accepted value; with unknown answers it never reports a rejected value as accepted.", "quantifier": "all ranges and acceptance functions", "why_tests_cant": "all histories of answers", "anchors": ["src/slicing/util.rs:PartialMinimizer"]}
{"id": "C44", "title": "Built-in distributions are the documented ones", "statement": "The verification condition of x = ber/flip/unif/binom/hyper(...) is the expected value of the postexpectation under the documented distribution, and the probabilities sum to 1.", "quantifier": "all parameters, postexpectations and states", "why_tests_cant": "infinitely many parameters", "anchors": ["src/intrinsic/distributions.rs", "website/docs/stdlib/distributions.md"]}
{"id": "C45", "title": "Constant folding preserves values", "statement": "Simplified expressions shown in explanations have the same value as the original expression in every state.", "quantifier": "all expressions and states", "why_tests_cant": "unbounded expressions", "anchors": ["src/opt/constfold.rs"]}
{"id": "C46", "title": "Reported concrete values compute like EUReal", "statement": "Arithmetic and ordering on concrete extended reals (counterexample values, literals) agree with mathematical extended reals.", "quantifier": "all values", "why_tests_cant": "infinite domain", "anchors": ["z3rro/src/eureal/concrete.rs"]}
{"id": "C47", "title": "The exit verdict is true only if every obligation was proved", "statement": "verify returns success iff every selected verification unit was proven; unknown, timeout or counterexample for any unit prevents success.", "quantifier": "all sequences of unit results", "why_tests_cant": "all sequences", "anchors": ["src/driver/commands/verify.rs:verify_files_main"]}
{"id": "C48", "title": "Extending a module reports all new items", "statement": "Adding items to a module returns exactly the newly added items.", "quantifier": "all modules and item lists", "why_tests_cant": "boundary of list lengths", "anchors": ["src/driver/front.rs:Module::extend"]}
{"id": "C49", "title": "Implicit casts are coherent", "statement": "The subtype relation used for implicit casts is a partial order, unification picks an upper bound of both operand types, and cast values embed injectively and compose (casting in two steps equals casting in one).", "quantifier": "all types and values", "why_tests_cant": "infinite value domains", "anchors": ["src/ast/ty.rs:PartialOrd", "src/front/tycheck.rs:try_unify"]}
{"id": "C50", "title": "SMT translation is faithful", "statement": "For every well-typed expression accepted by the translator, the SMT term evaluates in every SMT model respecting the invariants to the representation of the expression's value.", "quantifier": "all expressions, all states", "why_tests_cant": "all expressions", "anchors": ["src/smt/translate_exprs.rs:t_bool", "src/smt/translate_exprs.rs:t_eureal"]}
{"id": "C51", "title": "Fuel encodings of functions are conservative", "statement": "The axioms emitted for a user function by the axiomatic and fuel encodings hold for the actual function, so adding them never makes a false obligation provable.", "quantifier": "all functions satisfying their defining equation, all fuel bounds", "why_tests_cant": "quantifies over all interpretations", "anchors": ["src/smt/funcs/axiomatic.rs", "src/smt/funcs/fuel/fuel_mono.rs", "src/smt/funcs/fuel/fuel_param.rs"]}
{"id": "C52", "title": "The optional-stopping rule establishes a lower bound", "statement": "If the side conditions generated by @ost verify, the invariant is a lower bound of the loop's least-fixed-point semantics.", "quantifier": "all loops and invariants", "why_tests_cant": "needs limits over infinite executions", "anchors": ["src/proof_rules/ost.rs", "website/docs/proof-rules/ost.md"]}
{"id": "C53", "title": "The configured timeout applies to every later check", "statement": "After set_timeout the Z3 solver object used by any later check has that timeout configured, whatever push, pop and add operations happen in between.", "quantifier": "all histories of operations in both incremental modes", "why_tests_cant": "the timeout is only lost in particular histories and only visible in long-running checks", "anchors": ["z3rro/src/prover.rs:set_timeout", "z3rro/src/prover.rs:pop"]}
{"id": "C54", "title": "A slice is the program without the disabled statements", "statement": "For every assignment of the slice variables that satisfies the recorded constraints there is one program, obtained from the original by deleting sliceable statements and branches of nondeterministic choices, whose meaning equals the meaning of the instrumented program in every state with that assignment.", "quantifier": "all statements, selections, directions, assignments, postexpectations and states", "why_tests_cant": "the instrumentation guards use Goedel implications and lattice extremes whose effect must be right for every expectation", "anchors": ["src/slicing/transform.rs"]}
{"id": "C55", "title": "The entailment command checks vc[C](0) ≤ vc[P](∞) and reports the result", "statement": "`caesar entailment` accepts exactly the pairs of a coproc C and a proc P with equal parameter names and types; the task it generates holds iff in every state vc[C](0) is at most vc[P](∞) evaluated with P's parameters bound to C's; and the command exits with code 0 iff every pair was proved.", "quantifier": "all pairs of procedures, bodies, states, solver results and lists of procedures", "why_tests_cant": "the renaming must be simultaneous for every parameter list, the inequality is over all states, and the verdict depends on every combination of solver results", "anchors": ["src/driver/commands/refinement.rs"]}
{"id": "C56", "title": "The @ast rule proves almost-sure termination", "statement": "If the six procedures generated for an @ast annotation verify, with prob and decrease in their documented ranges and a body without nondeterminism, then the loop terminates with probability one from every state that satisfies the invariant; and the loop may be replaced by the generated block.", "quantifier": "all invariants, variants, probability and decrease functions, loop bodies without nondeterminism (including nested loops), states and postexpectations", "why_tests_cant": "termination with probability one is a limit over unboundedly many iterations and infinitely many states; a test observes finitely many runs of an encoding that never executes the loop", "anchors": ["src/proof_rules/mciver_ast.rs", "src/proof_rules/util.rs:163-240", "website/docs/proof-rules/ast.md"]}
{"id": "C57", "title": "The exported JANI model has the expectation of the procedure as its expected reward", "statement": "If a (co)procedure is converted to a JANI model, then in every initial state of the model the value of its property 'reward', the minimal (proc) or maximal (coproc) total expected reward over all schedulers, equals the expectation of the body with respect to the post, where loops are least fixed points; the initial states are those that satisfy the Boolean preconditions; and a model declared as DTMC has no nondeterminism.", "quantifier": "all procedures in the supported fragment with any nesting of loops, choices and distributions, all initial states, all history-dependent schedulers", "why_tests_cant": "the expected reward is a supremum over unboundedly many steps and an infimum over uncountably many schedulers; a test compares numbers computed by a model checker on a few finite models", "anchors": ["src/mc/mod.rs", "src/mc/opsem.rs", "src/mc/specs.rs", "jani/src/models.rs", "website/docs/model-checking.md"]}
{"id": "C58", "title": "Accepted programs satisfy their specifications in the annotated calculus", "statement": "If the call-graph and calculus checks accept a program, the approximation analysis reports that proofs are sound for every procedure, and the verification condition of every procedure holds, then every procedure annotated with @wp, @ert or @wlp satisfies its pre/post specification in the program where calls run the bodies and where loops and recursion mean the least (wp, ert) or greatest (wlp) fixed points.", "quantifier": "all programs with any number of mutually recursive procedures, any nesting of annotated loops, all initial states", "why_tests_cant": "the conclusion compares with fixed points over all recursion depths and loop iterations; a test only shows that particular programs are accepted or rejected", "anchors": ["src/proof_rules/calculus/calculus_checker.rs", "src/proof_rules/calculus/recursion_checker.rs", "src/proof_rules/calculus/soundness_checker.rs", "src/driver/quant_proof.rs", "website/docs/proof-rules/approximations.md"]}
{"id": "C59", "title": "What the type checker accepts is well typed", "statement": "Every procedure that name resolution and the type checker accept stands for exactly one procedure of the typed syntax: all operands, arguments, right-hand sides, annotations and specifications have the type that the later phases rely on. Type checking adds only type annotations and casts, a second visit changes nothing, accepted bodies assign to and havoc only local variables and outputs, and preconditions do not read outputs.", "quantifier": "all declarations, all syntax trees of any depth, all specifications and bodies", "why_tests_cant": "the later phases call unreachable! or panic on ill-typed trees; only an argument over all trees shows that none gets through", "anchors": ["src/front/tycheck.rs", "src/intrinsic/list.rs", "src/intrinsic/distributions.rs", "src/ast/visit.rs", "src/ast/ty.rs"]}
{"id": "C60", "title": "Name resolution is lexical scoping", "statement": "Name resolution replaces every name by the declaration that lexical scoping assigns to it: the innermost enclosing one before it, where procedures, domains, functions and axioms are visible in the whole file and built-in names are further out. It records each declaration exactly once with its kind and type, it fails with an error iff a name is missing or declared twice in a block, and it never panics. What it and the type checker accept stands for a typed file.", "quantifier": "all files, nestings of blocks, quantifiers and let expressions, built-in declarations, and names", "why_tests_cant": "scopes are pushed and popped by visits of every construct, and shadowing depends on all combinations of nested constructs and of the order of declarations", "anchors": ["src/front/resolve.rs", "src/scope_map.rs", "src/driver/front.rs:164-190", "src/intrinsic/annotations.rs:231-242", "src/proof_rules/omega.rs:66-91", "src/proof_rules/mciver_ast.rs:86-113", "src/proof_rules/ost.rs:83-94"]}
{"id": "C61", "title": "The front end establishes what verification assumes about programs", "statement": "If name resolution and type checking accept a file, the program it stands for is well-formed: procedures have different names and distinct parameters; preconditions depend on inputs only and postconditions on parameters only; bodies do not change inputs; every call is a call of a procedure of the file, with arguments and targets of the right types and distinct targets; what a loop changes without assigning to it is local to the loop. Hence a file which passes the front end, the calculus checks and the solver consists of procedures which satisfy their specifications.", "quantifier": "all files, built-in declarations, procedures, calls, loops; all queries and solver answers in the joined theorem", "why_tests_cant": "The conditions concern all files that the front end accepts; tests only show that some bad files are rejected.", "anchors": ["src/driver/front.rs:54-90", "src/driver/front.rs:160-190", "src/front/resolve.rs:120-330", "src/front/tycheck.rs:130-420", "src/procs/spec_call.rs:60-260", "src/proof_rules/util.rs:1-120"]}
{"id": "C62", "title": "The check for changed precedences rejects exactly the files whose meaning the new grammar may change", "statement": "With the default parser mode, a file that the new grammar accepts is also accepted by the old grammar, so it is always checked; it is accepted exactly if the trees of both grammars are the same up to the bracketing of associative operators, and rejected with the error ChangedPrecedence otherwise; the assertion on the number of expressions never fails. Both grammars are unambiguous. The expressions of accepted files have the same meaning with both trees: names are resolved in the same way, types and values are the same.", "quantifier": "all token sequences (files and raw programs), all parser modes, all states of name resolution and type checking, all program states", "why_tests_cant": "The claim is about all expressions of all nesting depths; the number of bracketings grows exponentially and tests use few of them.", "anchors": ["src/front/parser/grammar.lalrpop:66-298", "src/front/parser/precedence_update/grammar_old.lalrpop:60-260", "src/front/parser/precedence_update/mod.rs:77-95", "src/front/parser/precedence_update/mod.rs:163-296", "src/front/parser/precedence_update/mod.rs:396-509", "src/front/parser/mod.rs:120-221", "src/driver/commands/options.rs:27"]}
{"id": "C63", "title": "Printed programs can be parsed again, and are the same program", "statement": "Printing a file that the parser has produced, in whatever layout the pretty printer chooses, and parsing the output in the default mode gives the same file up to parentheses. In particular the output is accepted by the check for changed precedences.", "quantifier": "all files (and raw programs) the parser accepts, all layouts of the output", "why_tests_cant": "No test parses printed output; the claim is about all nestings of expressions and statements and all layouts.", "anchors": ["src/ast/expr.rs:89-142", "src/ast/expr.rs:294-333", "src/ast/expr.rs:425-441", "src/ast/stmt.rs:10-140", "src/ast/decl.rs:57-80", "src/ast/decl.rs:367-530", "src/front/parser/mod.rs:120-221", "src/driver/front.rs"]}
{"id": "C64", "title": "Loop rules are applied in the direction of their context", "statement": "In a program with negations that the monotonicity check accepts, every annotated loop is encoded in the direction of its context: what is generated for a procedure is a lower bound of its meaning (an upper bound for a coprocedure), also if loops are between negations.", "quantifier": "all programs with (k-)inductions and negations, all postexpectations and states, both directions", "why_tests_cant": "The tests of the proof rules have no negations, and the tests of negations have no loops; the claim is about all ways of nesting both.", "anchors": ["src/proof_rules/mod.rs:264-394", "src/proof_rules/induction.rs:243-365", "src/proof_rules/negations.rs:28-50", "src/procs/monotonicity.rs:73-90", "src/slicing/transform.rs:436-441"]}
{"id": "C65", "title": "Exactly the comments are removed before parsing", "statement": "Before a file is parsed, exactly its comments (line comments up to the end of the line, nested block comments, an unclosed block comment up to the end of the file) are replaced by spaces; everything else, including the text of string literals, stays where and as it is, and the result is valid text of the same length.", "quantifier": "all source texts, of any length and nesting of comments", "why_tests_cant": "The test has a few comments in a few positions; the claim is about every text, every nesting, every interleaving of comment markers, string literals and multi-byte characters.", "anchors": ["src/front/parser/mod.rs:255-312", "src/front/parser/mod.rs:132", "src/front/parser/mod.rs:152", "src/front/parser/grammar.lalrpop:76"]}
{"id": "C66", "title": "Explanations do not change what is verified and show the expectations of the program", "statement": "When explanations of the verification conditions are requested, the verification condition that is proved has the same value in every state as without explanations, for every program for which there is one, and every expression that is shown at a place of the program has the value of the expectation at this place.", "quantifier": "all programs after proof rules are encoded, all postexpectations, states, places in the program, answers of the solver while simplifying", "why_tests_cant": "Explanations turn on a different sequence of simplifications between all statements; a test sees the pretty-printed text for one program. The claim is about all programs and all states, and about a verdict that is the same with and without the option.", "anchors": ["src/vc/explain.rs:93-182", "src/vc/vcgen.rs:42-245", "src/driver/core_verify.rs:155-188", "src/proof_rules/negations.rs:53-73"]}
{"id": "C67", "title": "The verdict of the search for failing slices is right, and the reported slice fails and is smallest", "statement": "The search for failing slices, with which every program is verified by default, ends without a failed assertion for all truthful answers of the solver. If it reports that the program verifies, then the program verifies. If it reports a counterexample, then the program in which exactly the statements that were selected for slicing and not reported are removed fails, and if the solver was always sure and the smallest slice was asked for, then no failing slice has fewer statements.", "quantifier": "all programs, slicing options, directions, numbers of slice variables, sequences of truthful solver answers (including unknown ones and incomplete models), steps of the search", "why_tests_cant": "The search is a binary search driven by solver answers: the panics and the wrong verdict need unknown answers at particular steps, which depend on the solver, its version and its timeouts, and wrong minimality needs models that leave slice variables open. A test shows one sequence of answers.", "anchors": ["src/slicing/solver.rs:333-586", "src/slicing/model.rs:12-118", "src/slicing/util.rs:1-180", "src/driver/smt_proof.rs:320-372", "z3rro/src/prover.rs:150-221"]}
{"id": "C68", "title": "The reported verifying slices verify and are smallest or minimal", "statement": "With --slice-verify, for each of the four methods (unsat core, minimal subset, smallest subset, exists-forall), the search ends without a panic for all truthful answers of the solvers. If a slice is reported, the program without the statements that are reported as not necessary is a program obtained by deleting statements and branches, and it verifies. If the prover is always sure, no verifying slice leaves out more statements than the one reported for the smallest subset, and no further statement can be left out of the one reported for minimal subsets. The subset search relies on monotonicity: enabling concordant statements and disabling discordant ones keeps slices verifying.", "quantifier": "all programs, slicing options, directions, methods, numbers of slice variables, sequences of truthful solver answers (including unknown ones), steps of the search", "why_tests_cant": "Whether a slice verifies is a statement about all states and all slices in between; the searches are driven by cores and models that depend on the solver, and the wrong reports need a core that uses the constraint between the two branches of a choice.", "anchors": ["src/slicing/solver.rs:190-331", "src/slicing/solver.rs:413-450", "src/slicing/model.rs:61-100", "src/driver/smt_proof.rs:366-403", "src/driver/commands/options.rs:388-411", "z3rro/src/prover.rs:314-326"]}
{"id": "C69", "title": "The rewrite rules of the e-graph keep the value of an expression", "statement": "With --egraph, the verification condition is put into an e-graph and rewritten. Whenever the rewrite rules make the terms of two expressions of the same type equal, by any number of applications at any position, the two expressions have the same value in every state and interpretation; in particular the printed simplified term means the same as the verification condition.", "quantifier": "all expressions of all types on which the translation does not panic, all interpretations and states, all sequences of rule applications", "why_tests_cant": "The rules interact in an e-graph of unbounded size, and the wrong ones only show for truncated differences, infinity or negative numbers, or for equal names.", "anchors": ["src/opt/egraph.rs:10-123", "src/opt/egraph.rs:125-254", "src/opt/egraph.rs:256-276", "src/driver/quant_proof.rs:47-50"]}
{"id": "C70", "title": "A reported counterexample is a counterexample", "statement": "When the solver has found a model for the negated verification condition, the report lists the values of the variables, the statements that are part of the error, the value of the original program's verification condition and, if statements were sliced, that of the sliced program. There is one state which has all these values, in which the verification condition has the printed values, and in which it fails. Each free variable of the formula is listed.", "quantifier": "all verification conditions and formulas equivalent to them, all slice statements, all uses of the translator's cache, all SMT models the solver can return, including partial ones", "why_tests_cant": "It depends on which symbols Z3 leaves out of its model, and on values evaluated with and without model completion and after a second translation; the tests only look at the verdict.", "anchors": ["src/smt/pretty_model.rs:31-189", "src/smt/symbolic.rs:150-166", "z3rro/src/model.rs:77-255", "z3rro/src/eureal/pair.rs:142-157", "src/slicing/model.rs:36-118"]}
{"id": "C71", "title": "The rest of the solver's model is listed, and numbers are shown as they are", "statement": "The report of a counterexample lists, as extra definitions, exactly those constants of the solver's model which do not occur in any expression that was evaluated successfully before; walking over each shared expression only once and rolling back failed evaluations does not change this. Each rational number in the model is shown as it is.", "quantifier": "all Z3 expressions with arbitrary sharing, all sequences of successful and failed evaluations, all rational numbers", "why_tests_cant": "Whether the skipping of shared subexpressions loses a constant depends on the history of evaluations; numbers that do not fit into machine integers take a path through text that tests do not reach.", "anchors": ["z3rro/src/model.rs:36-162", "z3rro/src/model.rs:217-255", "src/smt/pretty_model.rs:45-49", "src/smt/pretty_model.rs:262-280"]}
{"id": "C72", "title": "The options about functions mean what they say", "statement": "With --no-partial-strengthening, the encoding of functions makes no false obligation provable; define-fun-rec, which always strengthens, is rejected together with this option and only then. With the fuel encodings, the unfolding of every function on a cycle of definitions is bounded, and only functions with a definition that depend on themselves get fuel.", "quantifier": "all encodings and option values, all declarations, dependency graphs, functions, interpretations, obligations and solver caches", "why_tests_cant": "The combination of options is only visible in the assertions given to the solver; a contradiction on values outside of the parameter types need not be found by the solver in a particular test.", "anchors": ["src/driver/smt_proof.rs:175-257", "src/smt/funcs/recfun.rs:22-165", "src/driver/commands/options.rs:145-181", "src/driver/commands/options.rs:215-245", "src/depgraph.rs:105-112"]}
{"id": "C73", "title": "Ranges sent to the editor are those of the spans", "statement": "For each span of a document, the range that the language server sends (line and UTF-16 column of the start and of the end, as the protocol defines them) is the position of the start and of the end of the span in the text.", "quantifier": "all texts and all spans of characters in them, the end of a span possibly inside of its last character", "why_tests_cant": "The conversion counts bytes, characters and lines; it is wrong only for particular characters, line ends and empty spans.", "anchors": ["src/ast/diagnostic.rs:96-106", "src/ast/diagnostic.rs:231-258", "src/ast/diagnostic.rs:280-320", "src/servers/lsp.rs:192-245"]}
{"id": "C74", "title": "The statuses shown in the editor are those of the procedures", "statement": "After a verification request, what is shown as verified at a location has been proved by a sound proof, together with all the side conditions generated for it; if the limits suffice, everything that has been proved is shown as verified and the file is done; nothing is shown as pending unless the request has been cancelled; timeouts are shown as timeouts.", "quantifier": "all lists of source units and generated units, all results of the solver, all amounts of resources", "why_tests_cant": "Which status is shown depends on the order of the units and on the combination of the results at one location.", "anchors": ["src/servers/mod.rs:40-165", "src/servers/lsp.rs:292-327", "src/servers/lsp.rs:443-525", "src/driver/commands/verify.rs:160-300"]}
{"id": "C75", "title": "Language server sessions", "statement": "Although verification runs concurrently with the reception of messages, each session is equivalent to handling the messages one after the other; each request gets exactly one response; what is verified is what the client has sent last; results are only published for the version and the text of a document that they were computed for; the server does not panic.", "quantifier": "all verifiers, all sequences of messages, all interleavings of the loop with the verification task", "why_tests_cant": "Interleavings and sessions are unbounded.", "anchors": ["src/servers/lsp.rs:68-386", "src/servers/lsp.rs:405-525", "src/servers/lsp.rs:528-670", "src/ast/diagnostic.rs:120-175", "src/driver/front.rs:296-306"]}
{"id": "C76", "title": "Resource limits are told to all the threads", "statement": "The first error (timeout, out of memory, cancellation) is stored for good; every check returns it; every watcher that waits is notified exactly once and nobody blocks while doing so; the solver is interrupted only after an error, at most once per check, while the check runs, and not after the watcher knows that the check is done; checks succeed only before the deadline, and watchers are told when it has passed; finished watchers are not subscribed.", "quantifier": "any number of threads and watchers, all interleavings of their atomic steps, all deadlines", "why_tests_cant": "The claims are about races between threads.", "anchors": ["src/resource_limits.rs:38-270", "src/slicing/solver.rs:686-748"]}
{"id": "C77", "title": "Rational numbers are printed as decimals that denote them", "statement": "The text of a rational number is its decimal expansion: sign, integer part and every digit shown (or meant by the overline) are right. Finite decimals are printed exactly; otherwise the fraction follows in parentheses and determines the number.", "quantifier": "all rational numbers", "why_tests_cant": "The tests have six numbers; the claim is about the period and the digits of all.", "anchors": ["z3rro/src/util.rs:171-242", "src/smt/pretty_model.rs:1", "src/mc/run_storm.rs:228-233"]}
{"id": "C78", "title": "The literal subexpressions are marked, and only those", "statement": "The collector of literal expressions reports exactly the literal subexpressions that are maximal or arguments of calls, in expressions with shared nodes, where the reported expressions are identified by their addresses. It does not change the expression or any other one. The value of a literal expression depends on the literal variables only.", "quantifier": "all expressions, all ways to share nodes, all sets of literal variables and computable functions", "why_tests_cant": "The marks are addresses: sharing within an expression and with others is not visible in the source.", "anchors": ["src/smt/funcs/fuel/literals.rs:1-191", "src/ast/visit.rs:173-222", "src/smt/translate_exprs.rs:111-133"]}
{"id": "C79", "title": "Shared expressions are values", "statement": "A change of a node through one pointer is not visible through any other pointer; the changed pointer denotes the new expression; a node is copied if and only if there is another pointer to it, and the copy has a new address. Visiting a clone mutably leaves the nodes of the original alone.", "quantifier": "all memories, pointers and changes", "why_tests_cant": "The claim is about all ways to share nodes.", "anchors": ["src/ast/shared.rs:1-142", "src/smt/translate_exprs.rs:143-152"]}
{"id": "C80", "title": "The verdict on a unit is right, from the encoded procedure to the SMT queries", "statement": "If the SMT solver answers the queries of a unit truthfully, then a reported proof means that the statement before slicing succeeds in all states, and a reported counterexample comes with a slice such that a program obtained by deleting the statements which are not in it fails in some state. With a solver which is always sure there is a verdict, and the slice is smallest. If all units of a checked program are proved, annotated procedures satisfy their specifications.", "quantifier": "all options, units, calls, slices, truthful solvers with partial models and unknown answers, all domains", "why_tests_cant": "The pipeline has eight stages which invent names and share state; a verdict is a claim about all states and all answers of the solver.", "anchors": ["src/driver/commands/verify.rs:237-284", "src/driver/core_verify.rs:43-67", "src/driver/quant_proof.rs:60-200", "src/driver/smt_proof.rs:133-190", "src/driver/smt_proof.rs:262-449", "src/slicing/solver.rs:63-156"]}
{"id": "C82", "title": "The computed dependencies of a unit cover everything in its formula", "statement": "Every function called in the formula which is proved for a unit is among the dependencies computed from the source of the unit, so it is declared to the SMT solver and applying it cannot panic. The dependencies are closed: functions called in definitions and axioms that are translated are again declared. All axioms and definitions of the program about a function of the formula are given to the solver.", "quantifier": "all programs without filter, units, options, and formulas lowering produces", "why_tests_cant": "The formula comes from the unit by replacing calls by specifications, slicing, vc generation and optimisations, each of which may move functions around; a missing dependency is a panic or an incomplete set of axioms on some programs only.", "anchors": ["src/depgraph.rs:30-289", "src/driver/front.rs:265-279", "src/driver/core_verify.rs:43-67", "src/driver/smt_proof.rs:133-190", "src/smt/uninterpreted.rs:54-60"]}
{"id": "C81", "title": "Selecting units with --filter does not change how a selected unit is treated", "statement": "The filter keeps domains and exactly the units whose name matches, in order. It causes no new errors. A selected procedure for which a run without filter reports unsound recursion is reported with the filter, too; all functions of its formula are declared; and procedures that are each verified in some run with a filter satisfy their specifications.", "quantifier": "all programs, patterns, calculi, component analyses, dependency graphs", "why_tests_cant": "The effect depends on which of the procedures on a cycle of calls the pattern keeps; tests run the verifier on whole files.", "anchors": ["src/driver/front.rs:84-88", "src/driver/front.rs:192-203", "src/driver/front.rs:248-279", "src/proof_rules/calculus/recursion_checker.rs:99-159", "src/smt/uninterpreted.rs:54-60"]}
{"id": "C83", "title": "What is reported to verify does so for all meanings of the functions that satisfy the definitions and axioms", "statement": "If a unit of a program with domains is reported to verify, then it does under every meaning of the declared functions which satisfies their definitions and the axioms of the program, although the solver only gets the encoded definitions and axioms which the unit depends on. For programs in which all units verify, the annotated procedures meet their specifications under all these meanings.", "quantifier": "all programs, function encodings, options, truthful solvers, and meanings of functions", "why_tests_cant": "The claim is about infinitely many meanings of functions and combines the choice of the encoder, the dependency graph, the translation and the search for slices; a contradictory encoding makes everything verify and passes all positive tests.", "anchors": ["src/driver/smt_proof.rs:133-172", "src/driver/smt_proof.rs:424-449", "src/smt/mod.rs:50-150", "src/smt/uninterpreted.rs:62-70", "src/driver/commands/verify.rs:237-284"]}
{"id": "C84", "title": "Explanations of procedures show the expectations of the program", "statement": "With --explain-vc, every procedure with a body is explained as it is written: a call by the precondition of the called procedure for the given arguments, a loop with an invariant by the invariant, an unrolled loop by its unrolling, everything else by its verification condition. At each place, also in the bodies of loops, the expression shown has the value of the expectation to be told at this place, in every state. If the procedure verifies, its precondition is a lower bound (upper bound for coprocedures) of what is shown at its start.", "quantifier": "all procedures, procedure tables, bodies, numbers of unrollings, sound solvers, symbol tables, interpretations and states", "why_tests_cant": "The values of expressions in all states, for programs of any size and nesting, cannot be enumerated; the simplifications between the places depend on solver answers; whether substitutions of arguments interfere depends on the names of parameters and the arguments of all calls.", "anchors": ["src/vc/explain.rs:183-357", "src/vc/vcgen.rs:186-245", "src/ast/expr.rs:540-549", "src/driver/front.rs:234-246", "src/driver/front.rs:397-418"]}
{"id": "C85", "title": "What is reported from Storm is Storm's result for the model of the procedure", "statement": "With --run-storm, the diagnostic at a procedure is Storm's answer for the model exported from this very procedure: the result in the section of the property reward, a number computed exactly as a decimal that denotes it, with a relation that says whether the value is exact, a lower bound or approximated. A value is shown only if Storm succeeded. Storm is run with exactly the settings asked for and with the smaller one of its timeout and the time left. Afterwards there is one file for each procedure, with its model.", "quantifier": "all lists of units, options, limits, exported models, behaviours of Storm, reports with any number of sections and lines, and rational numbers", "why_tests_cant": "Storm is not available to the tests, and the reading of its output must be right for every report, name and number, and for every sequence of units.", "anchors": ["src/mc/run_storm.rs:26-246", "src/driver/commands/model_check.rs:77-124", "src/driver/front.rs:422-446", "src/driver/commands/options.rs:62-128"]}
{"id": "C86", "title": "The exported JANI model defines exactly the functions it needs, with their HeyVL meaning", "statement": "If a (co)procedure is converted to a JANI model, the functions defined in the model are exactly those called in it or, directly or indirectly, in the definitions of such functions; each is defined once, with the parameters, types and translated body of its declaration. The worklist algorithm ends for all functions, recursive ones included, and fails exactly if a function that is needed has an unsupported type or a body that cannot be translated. If the functions of a model satisfy their definitions in both languages, they have the same values.", "quantifier": "all sets of declared functions with any dependencies, all procedures, all meanings of functions that satisfy the definitions, all arguments", "why_tests_cant": "the dependencies between functions can be arbitrarily deep and cyclic, and the values of functions are compared on infinitely many arguments", "anchors": ["src/mc/mod.rs", "jani/src/models.rs", "jani/src/exprs.rs"]}
{"id": "C87", "title": "The divergence properties of exported JANI models mean what the documentation says", "statement": "The properties of an exported model denote: `reward`, the optimal expected reward; `diverge_prob`, the optimal probability (minimal for procs, maximal for coprocs) of never reaching the sink; `can_diverge`, the existence of an infinite path that never reaches it. As documented, the one-bounded weakest liberal pre-expectation of the procedure is the sum of `reward` and `diverge_prob`, and its unbounded greatest-fixed-point semantics is infinity if `can_diverge` is true and `reward` otherwise.", "quantifier": "all procedures that can be exported, all schedulers (including history-dependent ones), all infinite paths, all initial states, all meanings of functions and of division by zero", "why_tests_cant": "the properties quantify over infinite paths and all schedulers of models with infinitely many states, and Storm only approximates them", "anchors": ["src/mc/specs.rs", "src/mc/opsem.rs", "website/docs/model-checking.md"]}
{"id": "C88", "title": "Lists in counterexamples are shown as they are", "statement": "For a list in the solver's model, given by its length and an array written as stores into a constant array, the text shown in a counterexample consists of the first sixteen elements in order (with dots exactly if there are more), the length, and the values stored outside of the bounds in the order of their indices; arrays are shown by their default and the stored values, where a later store replaces an earlier one. For integers, lists of integers, lists of such lists and so on with at most sixteen elements each, the text determines the list.", "quantifier": "all lengths, all chains of stores, all element values, all nesting depths", "why_tests_cant": "the order and overriding of stores, the boundary of sixteen elements and unique readability of nested texts depend on arbitrarily long chains and deep nesting", "anchors": ["z3rro/src/list.rs:ConcreteList::from_dynamic", "z3rro/src/array.rs:ConcreteArrayValue::from_dynamic", "z3rro/src/util.rs:parse_big_int"]}
{"id": "C89", "title": "Query files hold the query, only comments besides, and one file per unit", "statement": "With --smt-dir, a reader of SMT-LIB sees in the file of a unit exactly the solver options that were set (each once, with the value set last), the commands of the solver, a check, and the question for details that goes with the answer: the header with the command line, versions, name and result consists of comments, whatever these texts contain and however they are cut into pieces when written. The files are inside of the directory, every unit has its own file with its own query and answer, a unit without an answer has a file without one, and no other file is changed.", "quantifier": "all command lines, names, reasons and texts of the solver, all sequences of parameter settings, all ways of cutting the header into writes, all lists of units", "why_tests_cant": "a header with line feeds at arbitrary places, arbitrary pieces of writes, and names that clash only for special paths are not covered by runs on sample files", "anchors": ["src/driver/smt_proof.rs:write_smtlib", "src/driver/smt_proof.rs:set_global_z3_params", "src/driver/item.rs:SourceUnitName::to_file_name", "z3rro/src/util.rs:PrefixWriter", "z3rro/src/smtlib.rs:Smtlib", "z3rro/src/params.rs:SmtParams", "src/version.rs:write_detailed_command_info"]}
{"id": "C90", "title": "The reported verdict is right about the original program", "statement": "For each unit one of the documented texts is reported. \"Verified\" is reported exactly for proofs of units all of whose approximating statements (annotated loops, negations) have the side that the direction needs, and \"Counter-example to property found\" exactly for counterexamples of units all of whose approximating statements have the other side. \"Unsound verification\" comes with an error which labels exactly the statements that are not exact, among them one that is a reason. Each unit is judged by its own statements. \"Verified\" means that the procedure satisfies its specification, \"Counter-example to property found\" that it does not.", "quantifier": "all bodies, directions, calculi and results of the solver, all lists of units, all programs of procedures", "why_tests_cant": "the meaning of the texts is about the original program for all states, bodies and call structures, which a run of the tool cannot observe", "anchors": ["src/driver/smt_proof.rs:result_text", "src/driver/smt_proof.rs:print_prove_result", "src/proof_rules/calculus/soundness_checker.rs:soundness_diagnostic", "src/proof_rules/calculus/soundness_checker.rs:diagnostic_labels", "src/proof_rules/calculus/soundness_checker.rs:get_soundness_map", "src/driver/commands/verify.rs:226"]}
{"id": "C91", "title": "Errors, warnings and --werr", "statement": "A run of `caesar verify` has exit code 0 exactly if no step fails, every task is proved, and no error diagnostic is given; with `--werr` (documented as \"Treat warnings as errors\"), exactly if in addition no warning is given. Without `--werr`, the diagnostics printed by a run without failures are exactly those that are due. `--werr` never changes results: those printed are a prefix of those printed without it.", "quantifier": "All programs (lists of units and tasks with arbitrary bodies), options, and outcomes of parsing, type checking, translations, Storm, lowering steps and solver.", "why_tests_cant": "The exit code depends on combinations of diagnostics from independent phases; tests run single programs and the test server always has `--werr` set.", "anchors": ["src/servers/cli.rs:71-122", "src/servers/mod.rs:217-223", "src/driver/error.rs:40-85", "src/driver/front.rs:175-190,384-419", "src/driver/commands/verify.rs:160-314", "src/driver/commands/model_check.rs:73-124", "src/driver/core_verify.rs:130-151", "src/procs/monotonicity.rs:47-90", "src/slicing/transform.rs:186-197", "src/mc/run_storm.rs:25-47", "src/driver/commands/options.rs:30-32"]}
{"id": "C92", "title": "The arguments of annotations reach the encoders as they are written", "statement": "For a procedure body that passes name resolution and the type checker, the encoding of annotated loops does not panic. If it succeeds, the proof rules were called exactly for the annotations of the program, in order and inner ones first, with the numbers, variables and expressions that are written; the documented conditions on the arguments hold (`k` at least 1 for `@k_induction`, `eps < k` for `@past`); and every statement with a proof rule is a loop. Messages of slicing annotations are read without a panic and are the strings that are written.", "quantifier": "All declarations in scope and all bodies, of any nesting.", "why_tests_cant": "The encoders take their arguments apart with `unreachable!()` and `unwrap()`, relying on checks in two other phases; tests have few shapes of arguments.", "anchors": ["src/proof_rules/util.rs:236-317", "src/proof_rules/mod.rs:262-398", "src/proof_rules/induction.rs:111-121,211-230", "src/proof_rules/unroll.rs:120-129", "src/proof_rules/omega.rs:126-168", "src/proof_rules/past.rs:117-169", "src/proof_rules/ost.rs:124-167", "src/proof_rules/mciver_ast.rs:159-188", "src/slicing/selection.rs:276-298,346-356"]}
{"id": "C93", "title": "Terminators end the body", "statement": "A body is accepted only if `@ost` (the rule that is only sound at the end of a procedure) is at most on its last statement, which is not nested, and nowhere else; bodies are refused for this reason only if this is not so. Outside of procedures, nothing with a proof rule is accepted.", "quantifier": "All declarations and all bodies, of any nesting.", "why_tests_cant": "There are arbitrarily many places where a terminator can be, nested in blocks, loops and other annotations.", "anchors": ["src/proof_rules/mod.rs:200-217,262-398", "src/proof_rules/ost.rs:397-399", "src/vc/vcgen.rs:179"]}
{"id": "C94", "title": "What the editor is told about a result", "statement": "In the editor, a unit has the status \"verified\" exactly if no error is shown for it; otherwise there is exactly one error at the unit, which begins with the same text as on the command line. Statements are shown as part of an error only if there is a counterexample, and with the messages of their annotations. The counterexample has one label for each variable that is not from the slicer, in the order of the positions. There is no panic.", "quantifier": "All results, slice models, soundness records, lists of variables and texts.", "why_tests_cant": "The tests of the server compare single statuses; diagnostics of unknown results depend on the solver giving up.", "anchors": ["src/driver/smt_proof.rs:356-402,516-534,590-676", "src/slicing/model.rs:84-143", "src/slicing/solver.rs:333-370", "src/smt/pretty_model.rs:225-262", "src/servers/lsp.rs:493-510", "src/servers/mod.rs:86-96"]}
{"id": "C95", "title": "Each symbol of a query stands for one declaration", "statement": "In the SMT queries of a program, every declared domain is an uninterpreted sort of its own, every declared function (every copy of it, for the encoding with one copy per amount of fuel) is a symbol of its own with the sorts of its types, different functions are different symbols, and none of them is a helper symbol (literal markers, fuel, Skolem functions, fresh constants, constructors). Two types have the same sort exactly if they are the same up to unsignedness. The table of symbols gives different symbols to different identifiers and never changes one.", "quantifier": "All programs with pairwise different global names, all four function encoders, all amounts of fuel, all closed sets of dependencies, all types of any nesting depth.", "why_tests_cant": "A clash of names needs particular combinations of user names, encodings and nested types, and silently identifies two functions.", "anchors": ["src/smt/symbols.rs:7-44", "src/smt/uninterpreted.rs:16-60", "src/smt/mod.rs:73-108,173-186,243-261", "src/smt/funcs/fuel/fuel_mono.rs:105-125,192-197", "src/smt/funcs/recfun.rs:96-116", "z3rro/src/list.rs:141-172", "z3rro/src/lit.rs:37-48", "z3rro/src/scope.rs:188-192"]}
{"id": "C96", "title": "What the editor shows for a diagnostic is the diagnostic", "statement": "A diagnostic that is sent to the editor has the place, severity, code, message and tags of the original, and is related to all its labels, at their places and in their order, and then to its note. After a run has added diagnostics, each document has been sent exactly its diagnostics, in the order in which they were added, and no document is sent those of another file. The conversion panics exactly for spans outside of files (such as the dummy span) or with the end before the start.", "quantifier": "All tables of files, all diagnostics with any number of labels, and all sequences of added diagnostics.", "why_tests_cant": "The tests of the repository do not run the language server; a diagnostic that is attached to another document or loses a label is only seen by a user.", "anchors": ["src/ast/diagnostic.rs:280-318,425-434,524-583,625-650", "src/servers/lsp.rs:192-218,404-414"]}
{"id": "C97", "title": "Quantifiers are instantiated by the chosen heuristics", "statement": "For each value of the option for quantifier instantiation, Z3 uses exactly the documented heuristics (e-matching, model-based instantiation, both or none) for every quantifier of the query. Ids of quantifiers tell where the quantifiers are from: quantifiers of different kinds have different ids, and those of programs have the same id only at the same place.", "quantifier": "All combinations of the options for Z3, all names of functions, all spans, and all places in the code that make quantifiers.", "why_tests_cant": "The heuristics are chosen by a prefix of a text that is partly the user's; the tests use a few names and never look at the ids.", "anchors": ["z3rro/src/quantifiers.rs:27-72", "src/driver/smt_proof.rs:87-114", "src/driver/commands/options.rs:131-143", "src/smt/translate_exprs.rs:249-265,595-621", "src/smt/funcs/util.rs:80-115", "z3rro/src/orders.rs:276-322", "src/ast/diagnostic.rs:323-340"]}
{"id": "C98", "title": "Statistics are exact and leave expressions alone", "statement": "The statistics about a verification condition count each of its nodes and quantifiers once per occurrence and record the depths of its variables and literals; the warning about quantifiers is given exactly if there is one. Gathering them changes neither the expression nor any other, and does not change how they are stored.", "quantifier": "All expressions, with any sharing of nodes, and all pointers to their nodes from elsewhere.", "why_tests_cant": "Statistics are only traced, and whether nodes are shared afterwards cannot be seen from outside.", "anchors": ["src/ast/stats.rs:12-84", "src/driver/quant_proof.rs:119-135", "src/ast/visit.rs:173-222", "src/ast/shared.rs:50-58"]}
{"id": "C99", "title": "Explanations show as many steps as fit, without casts", "statement": "The steps shown for a statement are the last ones, as many as there are lines between the start of the block and the statement, and no two in a row look the same. They are shown without casts and are otherwise unchanged.", "quantifier": "All expressions, all lists of steps, all ways of printing, and all positions of the block and the statement.", "why_tests_cant": "There are no tests of explanations; they are only seen in the editor.", "anchors": ["src/vc/explain.rs:33-86", "src/ast/util.rs:142-161", "src/ast/visit.rs:173-222"]}
