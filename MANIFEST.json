{
 "claims": [
  {
   "property": "C01",
   "status": "partial",
   "theorems": [
    "Caesar.C01_vcgen_meaning_partial",
    "Caesar.C01_vcgen_meaning_no_validate",
    "Caesar.C01_vcgen_succeeds",
    "Caesar.C01_not_full"
   ],
   "note": "Full statement C01_full is false of the code (validate fallback, binom): C01_not_full. Proved for every statement whose validate posts are implications or {0,inf}-valued and whose binom parameters do not expose the wrong exponent."
  },
  {
   "property": "C02",
   "status": "partial",
   "theorems": [
    "Caesar.C02_validate_impl_partial",
    "Caesar.C02_covalidate_coimpl_partial",
    "Caesar.C02_validate_fallback",
    "Caesar.C02_covalidate_fallback",
    "Caesar.C02_spec_is_double_negation",
    "Caesar.C02_not_full"
   ],
   "note": "Code violates the documentation on posts that are not syntactically (co)implications (src/vc/vcgen.rs:126-155); exact behaviour proved in both cases."
  },
  {
   "property": "C03",
   "status": "partial",
   "theorems": [
    "Caesar.C03_vcgen_monotone_partial",
    "Caesar.C03_vcgen_monotone_no_validate",
    "Caesar.C03_semantics_monotone",
    "Caesar.C03_negation_needed",
    "Caesar.C03_not_full"
   ],
   "note": "Full statement false of the code because validate depends on the shape of the post (C03_not_full). Proved for all negation-free statements whose validate posts have the supported shape; the documented semantics is monotone without restriction."
  },
  {
   "property": "C04",
   "status": "proved",
   "theorems": [
    "Caesar.C04_apply_subst",
    "Caesar.C04_substitution_lemma"
   ],
   "note": "Capture-avoiding elimination of Subst nodes preserves the value in every state."
  },
  {
   "property": "C05",
   "status": "partial",
   "theorems": [
    "Caesar.C05_value_preserved",
    "Caesar.C05_no_parens_partial",
    "Caesar.C05_not_full"
   ],
   "note": "Value preservation proved for all expressions. Absence of parentheses holds only without directly nested parentheses; ((x)) refutes the full statement."
  },
  {
   "property": "C06",
   "status": "partial",
   "theorems": [
    "Caesar.C06_qelim_preserves_verdict_partial",
    "Caesar.C06_qelim_shadow",
    "Caesar.C06_not_full"
   ],
   "note": "Verdict preserved when Fresh-quantified variables are not duplicated; the unrestricted claim is refuted: two copies of a Fresh quantifier share the eliminated variable."
  },
  {
   "property": "C07",
   "status": "proved",
   "theorems": [
    "Caesar.C07_terminates",
    "Caesar.C07_value_preserved",
    "Caesar.C07_verdict"
   ],
   "note": "All expressions and states, including termination of the non-structural recursion."
  },
  {
   "property": "C08",
   "status": "partial",
   "theorems": [
    "Caesar.C08_relational_preserves_value_partial",
    "Caesar.C08_relational_succeeds",
    "Caesar.C08_not_full",
    "Caesar.C08_panics_on_booleans"
   ],
   "note": "Holds when all compared operands are unsigned (EUReal/UReal/UInt) and no comparison is on Booleans; the full statement is refuted for signed integers."
  },
  {
   "property": "C09",
   "status": "proved",
   "theorems": [
    "Caesar.C09_unfold",
    "Caesar.C09_value",
    "Caesar.C09_needs_sound"
   ],
   "note": "Unfolder with substitution frames, quantifier scopes and SAT pruning; for every oracle whose Unsat answers are correct (any other answers arbitrary) unfolding succeeds, removes substitutions and preserves the value in every state. C09_needs_sound shows the soundness hypothesis is used."
  },
  {
   "property": "C10",
   "status": "partial",
   "theorems": [
    "Caesar.C10_lowering_partial",
    "Caesar.C10_program_partial",
    "Caesar.C10_not_full",
    "Caesar.C10_program_not_full",
    "Caesar.C10_optRel_unsound",
    "Caesar.C10_optRel_panics"
   ],
   "note": "Proved for all option combinations, all sound solver oracles of the unfolder, both directions: the pipeline succeeds and the resulting Boolean formula is valid iff the vc is top/bottom everywhere (C10_lowering_partial), also composed with vcgen for programs (C10_program_partial), provided there are no user-written (Fresh) quantifiers if qelim is on, and no <=,>=,== on Int/Real/Bool if --opt-rel is on. The unrestricted claims are refuted: 'b = ber(1,1); assert inf x: Bool. ?(b == x)' verifies with default options although its value is 0; with --opt-rel 'assert ?(0 <= x)' verifies for x: Int."
  },
  {
   "property": "C11",
   "status": "proved",
   "theorems": [
    "Caesar.Smt.C11_implication_residual",
    "Caesar.Smt.C11_coimplication_residual",
    "Caesar.Smt.C11_compare",
    "Caesar.Smt.C11_cocompare",
    "Caesar.Smt.C11_compare_implication",
    "Caesar.Smt.C11_negate",
    "Caesar.Smt.C11_conegate",
    "Caesar.Smt.C11_negate_values",
    "Caesar.Smt.C11_conegate_values",
    "Caesar.Smt.C11_duality"
   ],
   "note": "Residuation, comparison, negation and duality laws for every linear lattice encoding, with Bool, pair, datatype and opposite instances."
  },
  {
   "property": "C12",
   "status": "partial",
   "theorems": [
    "Caesar.Smt.C12_operators_partial",
    "Caesar.Smt.C12_constants",
    "Caesar.Smt.C12_representation",
    "Caesar.Smt.C12_sub_partial",
    "Caesar.Smt.C12_sub_not_full",
    "Caesar.Smt.C12_sub_not_full_infinite"
   ],
   "note": "All operators, constants, comparisons and the representation are exact. Subtraction is exact only for finite subtrahends; C12_sub_not_full refutes it for an infinite one (5 - inf = 4)."
  },
  {
   "property": "C13",
   "status": "partial",
   "theorems": [
    "Caesar.Smt.C13_inverse",
    "Caesar.Smt.C13_operators_partial",
    "Caesar.Smt.C13_sub_partial",
    "Caesar.Smt.C13_sub_not_full"
   ],
   "note": "Conversions are inverse and commute with all operators except subtraction with an infinite subtrahend, which is refuted by C13_sub_not_full."
  },
  {
   "property": "C14",
   "status": "proved",
   "theorems": [
    "Caesar.Smt.C14_infimum_unique",
    "Caesar.Smt.C14_infimum_exists",
    "Caesar.Smt.C14_supremum_unique",
    "Caesar.Smt.C14_supremum_exists",
    "Caesar.Smt.C14_pair",
    "Caesar.Smt.C14_data",
    "Caesar.Smt.C14_bool"
   ],
   "note": "The constraints hold exactly of the function computing the infimum (supremum), and are satisfiable; for every encoding of a complete linear order, with pair, datatype and Bool instances."
  },
  {
   "property": "C15",
   "status": "partial",
   "theorems": [
    "Caesar.Smt.C15_select_store",
    "Caesar.Smt.C15_operators",
    "Caesar.Smt.C15_representation",
    "Caesar.Smt.C15_eq_partial",
    "Caesar.Smt.C15_congruence",
    "Caesar.Smt.C15_nested_not_full",
    "Caesar.Smt.C15_variables_not_full"
   ],
   "note": "Proved for lists of scalar elements. Refuted for nested lists (inner lists compared by raw datatype equality) and for the element invariant of list variables."
  },
  {
   "property": "C16",
   "status": "proved",
   "theorems": [
    "Caesar.Infra.C16_assertions",
    "Caesar.Infra.C16_no_panic",
    "Caesar.Infra.C16_level",
    "Caesar.Infra.C16_provables",
    "Caesar.Infra.C16_modes_agree"
   ],
   "note": "Stack discipline of the Prover in both incremental modes, for all operation histories."
  },
  {
   "property": "C17",
   "status": "partial",
   "theorems": [
    "Caesar.Infra.C17_assuming",
    "Caesar.Infra.C17_answers_partial",
    "Caesar.Infra.C17_not_full",
    "Caesar.Infra.C17_not_full_proof"
   ],
   "note": "The cached result of a check with assumptions is reused by the next check without assumptions, which violates the full statement (C17_not_full). Proved for histories in which the cache is not filled by such a check."
  },
  {
   "property": "C18",
   "status": "partial",
   "theorems": [
    "Caesar.C18_induction_sound_partial",
    "Caesar.C18_proc_verified_partial",
    "Caesar.C18_coproc_verified_partial",
    "Caesar.C18_not_full"
   ],
   "note": "Full statement C18_full is refuted (havocked variables missing from the modified set). Proved for arbitrary nested loops and k when havocked variables are also assigned or declared in the loop, for programs without negate and validate."
  },
  {
   "property": "C19",
   "status": "partial",
   "theorems": [
    "Caesar.C19_larger_k_partial",
    "Caesar.C19_provable_partial",
    "Caesar.C19_invariant_eq_one",
    "Caesar.C19_not_full"
   ],
   "note": "C19_full refuted for loop bodies with negate; proved for all other programs, for simultaneous growth of k in nested loops."
  },
  {
   "property": "C20",
   "status": "partial",
   "theorems": [
    "Caesar.C20_iterations",
    "Caesar.C20_vcgen_iterations",
    "Caesar.C20_encodes",
    "Caesar.C20_under_lfp_partial",
    "Caesar.C20_over_gfp_partial",
    "Caesar.C20_not_full"
   ],
   "note": "Exactness proved without restriction on the body; fixed-point comparison and monotonicity in k proved for bodies without negate, refuted with negate (C20_not_full)."
  },
  {
   "property": "C21",
   "status": "partial",
   "theorems": [
    "Caesar.C21_terminators_partial",
    "Caesar.C21_literals_partial",
    "Caesar.C21_one_bounded",
    "Caesar.C21_not_full",
    "Caesar.C21_one_not_over"
   ],
   "note": "C21_full refuted (the terminator is ignored by get_approximation); proved for terminators on the right side of the fixed point, the literals, and 1 w.r.t. one-bounded fixed points."
  },
  {
   "property": "C22",
   "status": "partial",
   "theorems": [
    "Caesar.C22_lower_partial",
    "Caesar.C22_positive_partial",
    "Caesar.C22_upper_partial",
    "Caesar.C22_not_full",
    "Caesar.C22_program_not_full",
    "Caesar.C22_up_not_full"
   ],
   "note": "Meaning of the encoding computed exactly in both directions. Proved: if the generated side conditions hold on a set of states closed under loop iterations, the vc is a lower bound of the lfp (procedures), and, with the additional condition Phi(infinity) <= I_0, an upper bound of the gfp (coprocedures); also if the vc is nowhere 0. The unrestricted claim is refuted: side conditions are checked in the current state only (a verified non-terminating program), and Phi(0) is used in coprocedures as well."
  },
  {
   "property": "C23",
   "status": "partial",
   "theorems": [
    "Caesar.C23_not_full",
    "Caesar.C23_checked",
    "Caesar.C23_bound",
    "Caesar.C23_partial"
   ],
   "note": "The full statement C23_full is refuted (C23_not_full: @past(1,1/2,1) while true {} is accepted, because the third condition is checked in a proc and so bounds the decrease from above). C23_checked states what the code establishes; C23_partial proves the property when the third condition holds in the documented direction, the invariant is finite and eps > 0, for bodies without calls, comparisons, negations, validations and non-Boolean assumptions. Missing: these three conditions are not checked by the code."
  },
  {
   "property": "C24",
   "status": "partial",
   "theorems": [
    "Caesar.C24_partial",
    "Caesar.C24_otherCallee",
    "Caesar.C24_not_full",
    "Caesar.C24_swap",
    "Caesar.C24_repeated_lhs"
   ],
   "note": "A call replaced by its specification bounds running the callee's body, under the side conditions listed in Procs/SpecCallSound (well-formed proc, a postcondition exists, no argument clash, distinct left-hand sides). The unrestricted claim is refuted: a proc without post generates no compare (C24_not_full); permuted arguments in a recursive call (C24_swap); repeated left-hand sides (C24_repeated_lhs)."
  },
  {
   "property": "C25",
   "status": "partial",
   "theorems": [
    "Caesar.C25_partial",
    "Caesar.C25_otherCallee",
    "Caesar.C25_not_full"
   ],
   "note": "Sequential nested substitution of parameters equals simultaneous substitution when no argument mentions a later parameter (always so if callee and caller differ); the unrestricted claim is refuted (C25_not_full)."
  },
  {
   "property": "C26",
   "status": "proved",
   "theorems": [
    "Caesar.C26_proc",
    "Caesar.C26_coproc",
    "Caesar.C26_total",
    "Caesar.C26_lowerBounds"
   ],
   "note": "The encoded procedure verifies iff the precondition bounds the meaning of the body applied to the postcondition, for procs and coprocs, several or no pre/post."
  },
  {
   "property": "C27",
   "status": "partial",
   "theorems": [
    "Caesar.C27_partial",
    "Caesar.C27_loops_partial",
    "Caesar.C27_not_full",
    "Caesar.recSem_fixed"
   ],
   "note": "If every procedure verifies with calls replaced by specifications, every procedure satisfies its specification in the greatest (procs) / least (coprocs) fixed-point semantics where calls run the bodies; any number of mutually recursive procedures. C27_loops_partial: the same end to end for bodies with annotated loops (@invariant, @k_induction) encoded away before. Restricted to procedures with a postcondition and calls without clashes; the unrestricted claim is refuted (C27_not_full: callee without post). recSem_fixed: the recursive semantics is a fixed point of unfolding."
  },
  {
   "property": "C28",
   "status": "partial",
   "theorems": [
    "Caesar.C28_partial",
    "Caesar.C28_complete",
    "Caesar.C28_not_full",
    "Caesar.C28_negated"
   ],
   "note": "Direction mismatches are reported for assigned calls in bodies without negate; refuted for calls in variable declarations (C28_not_full) and under negate (C28_negated). C28_complete: no error when all calls match."
  },
  {
   "property": "C29",
   "status": "partial",
   "theorems": [
    "Caesar.C29_partial",
    "Caesar.C29_noNeg",
    "Caesar.C29_not_full",
    "Caesar.C29_branches"
   ],
   "note": "Bodies accepted by the monotonicity check are monotone if the direction returns to its start in every branch and body; refuted otherwise (C29_not_full, C29_branches)."
  },
  {
   "property": "C30",
   "status": "partial",
   "theorems": [
    "Caesar.C30_forwards",
    "Caesar.C30_roundtrip_partial",
    "Caesar.C30_not_full",
    "Caesar.C30_not_full_accepts"
   ],
   "note": "handle_negation_backwards accepts conegate only in context Up, which is inverse to the forward walk; refuted by C30_not_full. Proved for all sequences without conegate."
  },
  {
   "property": "C31",
   "status": "proved",
   "theorems": [
    "Caesar.C31_order",
    "Caesar.C31_algebra",
    "Caesar.C31_glb",
    "Caesar.C31_combine",
    "Caesar.C31_infimum",
    "Caesar.C31_infimum_sound",
    "Caesar.C31_soundness",
    "Caesar.C31_soundness_exact"
   ],
   "note": "Order, combination, infimum and their soundness for all preorders; soundness flags of ProcSoundness."
  },
  {
   "property": "C32",
   "status": "partial",
   "theorems": [
    "Caesar.C32_tracking_partial",
    "Caesar.C32_proc_verdict_partial",
    "Caesar.C32_coproc_verdict_partial",
    "Caesar.C32_not_full",
    "Caesar.C32_wp_proc_refutations",
    "Caesar.C32_additive_wrong",
    "Caesar.C32_record_partial"
   ],
   "note": "C32_full refuted (wp proc with invariant; additive branches ignored); proved for programs satisfying RulesOk with nested and mixed rules."
  },
  {
   "property": "C33",
   "status": "proved",
   "theorems": [
    "Caesar.C33_allowed_iff",
    "Caesar.C33_loop_rules",
    "Caesar.C33_loop_rules_context",
    "Caesar.C33_default",
    "Caesar.C33_recursion"
   ],
   "note": "Admissibility table is exactly Park induction's soundness, over all complete lattices and monotone functions; acceptance of recursion and of induction rules."
  },
  {
   "property": "C34",
   "status": "proved",
   "theorems": [
    "Caesar.C34_recursive_iff",
    "Caesar.C34_blame",
    "Caesar.C34_contract"
   ],
   "note": "petgraph's tarjan_scc enters as its contract, which is shown satisfiable for every graph."
  },
  {
   "property": "C35",
   "status": "proved",
   "theorems": [
    "Caesar.Infra.C35_closure",
    "Caesar.Infra.C35_recursive",
    "Caesar.Infra.C35_total"
   ],
   "note": "Work list closure equals reflexive transitive closure of the dependency relation, for all declaration lists."
  },
  {
   "property": "C36",
   "status": "proved",
   "theorems": [
    "Caesar.C36_refines_spec",
    "Caesar.C36_new",
    "Caesar.C36_push_pop_restores",
    "Caesar.C36_wrong_token_panics"
   ],
   "note": "Scope map refines a stack-of-scopes specification; push/pop restores."
  },
  {
   "property": "C37",
   "status": "proved",
   "theorems": [
    "Caesar.C37_fresh_not_declared",
    "Caesar.C37_terminates",
    "Caesar.C37_history_fresh",
    "Caesar.C37_clones_distinct",
    "Caesar.C37_undeclared_fresh_may_collide",
    "Caesar.C37_counter_advances"
   ],
   "note": "Fresh identifiers are undeclared; clone_var histories are pairwise distinct; generation terminates."
  },
  {
   "property": "C38",
   "status": "proved",
   "theorems": [
    "Caesar.C38_collected_determine_value",
    "Caesar.C38_collects_exactly_free",
    "Caesar.C38_panics_iff_subst"
   ],
   "note": "Collected variables are exactly the free ones and determine the value."
  },
  {
   "property": "C39",
   "status": "partial",
   "theorems": [
    "Caesar.C39_reported_partial",
    "Caesar.C39_undeclared_partial",
    "Caesar.C39_not_full"
   ],
   "note": "C39_full refuted (havoc is not collected); proved for statements whose havocked variables are otherwise reported."
  },
  {
   "property": "C40",
   "status": "proved",
   "theorems": [
    "Caesar.C40_enabled",
    "Caesar.C40_constraints"
   ],
   "note": "Slicing transformation (all statements, all selections): with every toggle enabled the value is unchanged; recorded constraints hold when all toggles are enabled."
  },
  {
   "property": "C41",
   "status": "partial",
   "theorems": [
    "Caesar.C41_not_full",
    "Caesar.C41_verify_partial",
    "Caesar.C41_error_partial",
    "Caesar.C41_counterexample",
    "Caesar.C41_verified"
   ],
   "note": "Full claim refuted (direction is threaded through branches, C41_not_full). Proved for programs accepted by the direction discipline: verified slices with only concordant statements disabled, and failing slices with only discordant ones disabled."
  },
  {
   "property": "C42",
   "status": "partial",
   "theorems": [
    "Caesar.Slicing.C42_not_full",
    "Caesar.Slicing.C42_returned_verifies_partial",
    "Caesar.Slicing.C42_blockUnsat_partial",
    "Caesar.Slicing.C42_blockSat_partial",
    "Caesar.Slicing.C42_size_partial",
    "Caesar.Slicing.C42_subset_partial"
   ],
   "note": "Enumeration of verifying slices for every truthful prover and exact solver. Refuted in full: the constraint that one branch of a sliced choice stays enabled is assumed by the prover, so a slice without either branch is reported as verifying. Proved when the explored variables are unconstrained: termination, the returned slice verifies, blocking only removes slices of known status, size- and subset-optimality."
  },
  {
   "property": "C43",
   "status": "proved",
   "theorems": [
    "Caesar.Slicing.C43_search",
    "Caesar.Slicing.C43_optimum",
    "Caesar.Slicing.C43_enabled"
   ],
   "note": "Search loop of slice_sat_binary_search over PartialMinimizer for every range, every monotone acceptance test and every truthful answer function; termination without failed assertions, optimality without unknown answers, soundness with them."
  },
  {
   "property": "C44",
   "status": "partial",
   "theorems": [
    "Caesar.C44_sample_expected_value_partial",
    "Caesar.C44_weights_sum_to_one",
    "Caesar.C44_pmf_sum_to_one",
    "Caesar.C44_ber_zero_panics",
    "Caesar.C44_unif_empty_panics",
    "Caesar.C44_binom_panics",
    "Caesar.C44_binom_wrong"
   ],
   "note": "binom uses the exponent pb-pa instead of n-k (src/intrinsic/distributions.rs:258): C44_binom_wrong. All other distributions and harmless binom parameters proved."
  },
  {
   "property": "C45",
   "status": "partial",
   "theorems": [
    "Caesar.C45_not_full",
    "Caesar.C45_not_full_sup",
    "Caesar.C45_not_full_inf",
    "Caesar.C45_constFold_partial"
   ],
   "note": "ConstFold changes values (0 - x becomes x; sup(0, x) becomes x on Int) and panics on inf(0, x) for Int; outside the excluded expressions it never panics and preserves all values"
  },
  {
   "property": "C46",
   "status": "proved",
   "theorems": [
    "Caesar.Smt.C46_add",
    "Caesar.Smt.C46_mul",
    "Caesar.Smt.C46_sub",
    "Caesar.Smt.C46_le",
    "Caesar.Smt.C46_eq",
    "Caesar.Smt.C46_one",
    "Caesar.Smt.C46_symbolic"
   ],
   "note": "Addition, multiplication, order, equality, one and conversion are exact; subtraction is undefined exactly for infinite subtrahends and otherwise truncated."
  },
  {
   "property": "C47",
   "status": "proved",
   "theorems": [
    "Caesar.Driver.C47_exit_code",
    "Caesar.Driver.C47_failure"
   ],
   "note": "Exit code 0 iff front end clean and every unit proved and sound; --no-verify is the documented exception."
  },
  {
   "property": "C48",
   "status": "partial",
   "theorems": [
    "Caesar.Driver.C48_extend_partial",
    "Caesar.Driver.C48_not_full"
   ],
   "note": "Module::extend returns the slice starting after the first new item (off by one); refuted in full, exact behaviour proved."
  },
  {
   "property": "C49",
   "status": "proved",
   "theorems": [
    "Caesar.C49_partial_order",
    "Caesar.C49_casts",
    "Caesar.C49_cast_exists",
    "Caesar.C49_try_cast",
    "Caesar.C49_try_unify"
   ],
   "note": "Subtype order, casts and unification, with values in the extended reals as specification."
  },
  {
   "property": "C50",
   "status": "partial",
   "theorems": [
    "Caesar.Smt.C50_translation_partial",
    "Caesar.Smt.C50_states_partial",
    "Caesar.Smt.C50_models_partial",
    "Caesar.Smt.C50_validity_partial",
    "Caesar.Smt.C50_not_full",
    "Caesar.Smt.C50_division_not_full"
   ],
   "note": "Proved for all expressions, caches and models in which no EUReal subtraction has an infinite subtrahend; the full statement is refuted by 5 - ∞. List operations and substitutions are outside the modelled translator; the solver may also choose negative values for UReal division by zero (C50_division_not_full)."
  },
  {
   "property": "C51",
   "status": "partial",
   "theorems": [
    "Caesar.Smt.C51_facts_partial",
    "Caesar.Smt.C51_sound_partial",
    "Caesar.Smt.C51_not_full",
    "Caesar.Smt.C51_partial_encoding_not_full"
   ],
   "note": "Model: the axiomatic encoder, the two fuel encoders, and init_dependencies on top of the C50 translator. Proved: for true definitions, all emitted assertions hold of the actual functions and no false obligation becomes provable, for all fuel bounds and options, if (a) the strengthened encoding is used only for parameters without type constraints, (b) definitions contain no infimum/supremum of EUReal and no subtraction of infinity. Refuted in general: StrengthenToTotal (the default) is contradictory for f(x: UInt) = if x < 0 then f(x)+1 else 0; and an infimum in a definition becomes a single Skolem constant, making g(0) = g(1) provable."
  },
  {
   "property": "C52",
   "status": "partial",
   "theorems": [
    "Caesar.C52_not_full",
    "Caesar.C52_stochastic_partial",
    "Caesar.C52_call_partial"
   ],
   "note": "The full statement C52_full is refuted (C52_not_full: a demonic choice in the body passes all six side conditions although the loop has value 0). Proved for bodies built from assignments, sampling, conditionals, angelic choice, tick, weights at most one and Boolean assert/assume: the invariant is a lower bound (optional stopping), and so is the statement generated in place of the loop. Missing: other body statements (nested loops, calls, havoc, demonic choice)."
  },
  {
   "property": "C53",
   "status": "partial",
   "theorems": [
    "Caesar.Infra.C53_native_partial",
    "Caesar.Infra.C53_not_full"
   ],
   "note": "Holds in native mode; in emulated mode pop recreates the solver without the timeout (C53_not_full)."
  },
  {
   "property": "C54",
   "status": "proved",
   "theorems": [
    "Caesar.C54_slice"
   ],
   "note": "For every assignment satisfying the constraints the transformed program has the meaning of one sub-program (specification Cut)."
  },
  {
   "property": "C55",
   "status": "partial",
   "theorems": [
    "Caesar.C55_mapping",
    "Caesar.C55_task",
    "Caesar.C55_pair_partial",
    "Caesar.C55_no_pre_partial",
    "Caesar.C55_formula_partial",
    "Caesar.C55_not_full",
    "Caesar.C55_exit_partial",
    "Caesar.C55_proved_exit_zero",
    "Caesar.C55_odd"
   ],
   "note": "Accepted pairs (C55_mapping) and meaning of the generated task (C55_task) in general; bodies without calls and validate for the relation to the documented semantics; exit code claim refuted (C55_not_full), what the code does say is C55_exit_partial"
  },
  {
   "property": "C56",
   "status": "partial",
   "theorems": [
    "Caesar.C56_conditions",
    "Caesar.C56_terminates",
    "Caesar.C56_block_partial",
    "Caesar.C56_not_full",
    "Caesar.C56_range_wrong",
    "Caesar.C56_block_wrong"
   ],
   "note": "C56_terminates is the documented theorem, for bodies without nondeterminism (assignments, sampling, conditionals, nested loops, weights at most one, Boolean assertions). C56_full (the loop may be replaced by the generated block) is refuted in three ways; C56_block_partial proves it for states in the invariant and postexpectations that ignore the changed variables."
  },
  {
   "property": "C57",
   "status": "partial",
   "theorems": [
    "Caesar.Mc.C57_not_full",
    "Caesar.Mc.C57_coassert_wrong",
    "Caesar.Mc.C57_skip_wrong",
    "Caesar.Mc.C57_value_partial",
    "Caesar.Mc.C57_restrict",
    "Caesar.Mc.C57_dtmc",
    "Caesar.Mc.C57_expr",
    "Caesar.Mc.value_eq_limit"
   ],
   "note": "The full statement is refuted (declarations in loops, Boolean coassert, --jani-skip-quant-pre); proved for all other programs of the supported fragment. Functions may call other functions but not be recursive (C86)."
  },
  {
   "property": "C58",
   "status": "partial",
   "theorems": [
    "Caesar.C58_not_full",
    "Caesar.C58_partial",
    "Caesar.C58_solver_partial"
   ],
   "note": "Refuted in full (unannotated callees are not checked). Proved for programs in which every procedure with a body reachable from the annotated procedure is annotated too, both from valid verification conditions and from solver answers."
  },
  {
   "property": "C59",
   "status": "partial",
   "theorems": [
    "Caesar.Front.C59_not_full",
    "Caesar.Front.C59_not_strings",
    "Caesar.Front.C59_not_axioms",
    "Caesar.Front.C59_expr_partial",
    "Caesar.Front.C59_stmts_partial",
    "Caesar.Front.C59_partial",
    "Caesar.Front.C59_unique",
    "Caesar.Front.C59_strip",
    "Caesar.Front.C59_recheck",
    "Caesar.Front.C59_targets",
    "Caesar.Front.C59_pre"
   ],
   "note": "Refuted in full (C59_not_full: len accepts arguments of any type). Proved for programs that apply len to lists only and have no string literals in expressions: every accepted procedure can be read as a typed procedure. Uniqueness of the reading, erasure, second visits, assignment targets and preconditions hold without these restrictions, except that second visits need them too."
  },
  {
   "property": "C60",
   "status": "partial",
   "theorems": [
    "Caesar.Front.C60_not_full",
    "Caesar.Front.C60_not_late",
    "Caesar.Front.C60_not_calculus",
    "Caesar.Front.C60_not_panics",
    "Caesar.Front.C60_leak",
    "Caesar.Front.C60_partial",
    "Caesar.Front.C60_declared",
    "Caesar.Front.C60_front_partial"
   ],
   "note": "the full statement C60_full is refuted (functions used before their domain), as are the claims about calculi and panics; C60_partial proves it for files without these. C60_front_partial joins name resolution with C59."
  },
  {
   "property": "C61",
   "status": "partial",
   "theorems": [
    "Caesar.Front.C61_partial",
    "Caesar.Front.C61_program_partial",
    "Caesar.Front.C61_verified_partial",
    "Caesar.Front.C61_not_full",
    "Caesar.Front.C61_not_locals"
   ],
   "note": "Refuted in full: calls may have the same target twice, annotated loops may havoc variables they do not assign to. Proved: everything else (C61_partial); the assumptions of C58 (C61_program_partial) and its conclusion (C61_verified_partial) for accepted files in a fragment which is free of conditions on names, scopes and types except those two gaps and clashes in recursive calls."
  },
  {
   "property": "C62",
   "status": "partial",
   "theorems": [
    "Caesar.Parse.C62_unique",
    "Caesar.Parse.C62_old",
    "Caesar.Parse.C62_accepted",
    "Caesar.Parse.C62_changed",
    "Caesar.Parse.C62_syntaxError",
    "Caesar.Parse.C62_no_panic",
    "Caesar.Parse.C62_meaning_partial",
    "Caesar.Parse.C62_not_full"
   ],
   "note": "Exact characterisation of acceptance, rejection and errors, unambiguity and absence of panics are proved in full. Meaning: expressions of accepted files are resolved in the same way and have the same types and values with both trees if the type checker accepts both. That it accepts both or neither is refuted (C62_not_full)."
  },
  {
   "property": "C63",
   "status": "partial",
   "theorems": [
    "Caesar.Parse.C63_partial",
    "Caesar.Parse.C63_calculus_partial",
    "Caesar.Parse.C63_not_full",
    "Caesar.Parse.C63_fraction",
    "Caesar.Parse.C63_not_let",
    "Caesar.Parse.C63_not_call",
    "Caesar.Parse.C63_not_func",
    "Caesar.Parse.C63_calculus"
   ],
   "note": "For files without let, numbers with a decimal point, calls as statements, functions in domains and calculus annotations; each of these is printed wrongly, which is shown by its own theorem."
  },
  {
   "property": "C64",
   "status": "partial",
   "theorems": [
    "Caesar.C64_partial",
    "Caesar.C64_proc_partial",
    "Caesar.C64_not_full",
    "Caesar.C64_verifies"
   ],
   "note": "Proved for programs in which every loop is in a context of the direction of the procedure; negations are allowed anywhere outside of loops. The full statement is refuted: the direction of the procedure is used for all loops."
  },
  {
   "property": "C65",
   "status": "partial",
   "theorems": [
    "Caesar.C65_exact_partial",
    "Caesar.C65_spec",
    "Caesar.C65_partial",
    "Caesar.C65_not_full",
    "Caesar.C65_positions_partial",
    "Caesar.C65_clean_partial",
    "Caesar.C65_text_partial"
   ],
   "note": "Refuted for string literals that contain // or /* (C65_not_full); exact characterisation: the code is right iff no string literal contains such a marker (C65_exact_partial), in particular for sources without string literals (C65_partial). Positions, absence of comments in the result and validity of the text are proved for all sources."
  },
  {
   "property": "C66",
   "status": "partial",
   "theorems": [
    "Caesar.C66_partial",
    "Caesar.C66_result_partial",
    "Caesar.C66_not_full",
    "Caesar.C66_not_full_verified",
    "Caesar.C66_not_full_negation",
    "Caesar.C66_not_full_validate"
   ],
   "note": "Same condition and right expectations for programs without negations whose subtractions and divisions are from literals; with negations if there is no error. Refuted in general: constant folding in explanations makes a wrong program verify, shape of validate, direction at negations."
  },
  {
   "property": "C67",
   "status": "partial",
   "theorems": [
    "Caesar.C67_proof_partial",
    "Caesar.C67_verified_partial",
    "Caesar.C67_slice",
    "Caesar.C67_program",
    "Caesar.C67_original_partial",
    "Caesar.C67_sure_partial",
    "Caesar.C67_not_full",
    "Caesar.C67_wrong_proof",
    "Caesar.C67_panic",
    "Caesar.C67_panic_inconsistent",
    "Caesar.C67_not_minimal",
    "Caesar.C67_lost"
   ],
   "note": "Proved: without --slice-error-inconsistent, a program that is reported to verify does verify, for all unknown answers (all states for programs without negations); the reported slice fails and is the program with statements deleted, for all options and answers; without @slice_error the program itself fails; with a solver that is always sure and gives complete models, the search ends without panic and the slice is smallest. Refuted: wrong proof, panics, non-minimal report, lost counterexample."
  },
  {
   "property": "C68",
   "status": "partial",
   "theorems": [
    "Caesar.C68_mono",
    "Caesar.C68_core_partial",
    "Caesar.C68_existsForall_partial",
    "Caesar.C68_existsForall_ends",
    "Caesar.C68_enumerate_partial",
    "Caesar.C68_smallest_partial",
    "Caesar.C68_minimal_partial",
    "Caesar.C68_partial",
    "Caesar.C68_not_for",
    "Caesar.C68_not_full"
   ],
   "note": "Full statement C68_full (C68_for per method), refuted for every method by C68_not_for: constraints between branches are only assumed. Proved: monotonicity of slices (C68_mono), soundness of unsat cores and exists-forall slices that satisfy the constraints for all programs, and all of C68 for programs without negations in which the constraints hold in all considered slices (C68_partial). Missing: choices whose branches are selected for verifying slices, negations, discordant statements with @slice_verify."
  },
  {
   "property": "C69",
   "status": "partial",
   "theorems": [
    "Caesar.C69_partial",
    "Caesar.C69_rules",
    "Caesar.C69_not_addSub",
    "Caesar.C69_not_subAdd",
    "Caesar.C69_not_idSup",
    "Caesar.C69_not_casts",
    "Caesar.C69_not_names",
    "Caesar.C69_not_full"
   ],
   "note": "Proved for unsigned types and unique names without add-sub and sub-add; each of the two rules refuted, as well as id-sup for signed numbers, dropped casts and dropped spans. egg is replaced by the congruence closure of the rules."
  },
  {
   "property": "C70",
   "status": "partial",
   "theorems": [
    "Caesar.Smt.C70_partial",
    "Caesar.Smt.C70_listed",
    "Caesar.Smt.C70_not_full"
   ],
   "note": "Proved with hypotheses: no subtraction has an infinite subtrahend, and the solver knows that the values are infinite that are printed as ∞ (finite values need no such hypothesis); refuted without the latter. Z3's model evaluation is specified, lists and fuel are not covered."
  },
  {
   "property": "C71",
   "status": "partial",
   "theorems": [
    "Caesar.Smt.C71_listed_partial",
    "Caesar.Smt.C71_numbers",
    "Caesar.Smt.C71_fractions",
    "Caesar.Smt.C71_integers_not_full",
    "Caesar.Smt.C71_quantifiers_not_full",
    "Caesar.Smt.C71_not_full"
   ],
   "note": "Extra definitions: proved for occurrences outside of quantifiers, refuted inside. Numbers: shown as they are or an error, always for non-negative fractions; refuted for large integers."
  },
  {
   "property": "C72",
   "status": "partial",
   "theorems": [
    "Caesar.Smt.C72_sound_partial",
    "Caesar.Smt.C72_unconstrained_partial",
    "Caesar.Smt.C72_error",
    "Caesar.Smt.C72_error_not_full",
    "Caesar.Smt.C72_sound_not_full",
    "Caesar.Smt.C72_not_full",
    "Caesar.Smt.C72_recursion",
    "Caesar.Smt.C72_fuel_defined",
    "Caesar.Smt.C72_calls",
    "Caesar.Smt.C72_options"
   ],
   "note": "Documented behaviour C72_full is refuted (inverted check for define-fun-rec, unsound with the flag). Proved: soundness for all other encodings with the flag, soundness of all encodings for unconstrained parameters, the exact error condition, and both claims about recursion and fuel."
  },
  {
   "property": "C73",
   "status": "partial",
   "theorems": [
    "Caesar.Position.C73_range_partial",
    "Caesar.Position.C73_defined",
    "Caesar.Position.C73_empty_starts_at_zero",
    "Caesar.Position.C73_eof_starts_at_zero",
    "Caesar.Position.C73_empty_not_full",
    "Caesar.Position.C73_units_not_full",
    "Caesar.Position.C73_cr_not_full",
    "Caesar.Position.C73_not_full"
   ],
   "note": "Ranges of non-empty spans in plain lines. The full statement is refuted for empty spans, characters of two UTF-16 units and lone carriage returns."
  },
  {
   "property": "C74",
   "status": "partial",
   "theorems": [
    "Caesar.Server.C74_shown",
    "Caesar.Server.C74_request_partial",
    "Caesar.Server.C74_order_partial",
    "Caesar.Server.C74_order_not_full",
    "Caesar.Server.C74_refuted_side_condition",
    "Caesar.Server.C74_raw_not_full",
    "Caesar.Server.C74_done_not_full",
    "Caesar.Server.C74_timeout_not_full",
    "Caesar.Server.C74_not_full"
   ],
   "note": "What is shown after a request, without raw units and if there is a task. The full statement is refuted in four ways."
  },
  {
   "property": "C75",
   "status": "partial",
   "theorems": [
    "Caesar.Server.C75_sequential",
    "Caesar.Server.C75_active",
    "Caesar.Server.C75_dead",
    "Caesar.Server.C75_sequential_possible",
    "Caesar.Server.C75_responses_partial",
    "Caesar.Server.C75_responses_not_full",
    "Caesar.Server.C75_text_partial",
    "Caesar.Server.C75_text_not_full",
    "Caesar.Server.C75_honest_partial",
    "Caesar.Server.C75_honest_one",
    "Caesar.Server.C75_honest_not_full",
    "Caesar.Server.C75_exhausted",
    "Caesar.Server.C75_exhausted_13",
    "Caesar.Server.C75_survives_partial",
    "Caesar.Server.C75_survives_not_full"
   ],
   "note": "The refinement is proved for all sessions. Responses: proved for the two requests that are handled. Texts: if all the documents are HeyVL documents. Published results: for clients that verify or close a changed document next, in particular with one document. Survival: for good clients and verifiers and a bounded number of files. Each full claim is refuted."
  },
  {
   "property": "C76",
   "status": "partial",
   "theorems": [
    "Caesar.Limits.C76_first",
    "Caesar.Limits.C76_agree",
    "Caesar.Limits.C76_timely",
    "Caesar.Limits.C76_origin",
    "Caesar.Limits.C76_no_block",
    "Caesar.Limits.C76_notifies",
    "Caesar.Limits.C76_delivered",
    "Caesar.Limits.C76_stops",
    "Caesar.Limits.C76_message_stops",
    "Caesar.Limits.C76_on_stop",
    "Caesar.Limits.C76_unsubscribed",
    "Caesar.Limits.C76_deadline_not_full",
    "Caesar.Limits.C76_interrupt_not_full",
    "Caesar.Limits.C76_interrupt_late",
    "Caesar.Limits.C76_await_not_full",
    "Caesar.Limits.C76_await_partial"
   ],
   "note": "First error, agreement, origin, no blocking, no lost notification and no false stop for all interleavings. Refuted: the deadline notifies watchers, the interrupt hits the check, and the error of the hard timeout is the stored one."
  },
  {
   "property": "C77",
   "status": "partial",
   "theorems": [
    "Caesar.Smt.C77_decimal",
    "Caesar.Smt.C77_fraction",
    "Caesar.Smt.C77_not_full",
    "Caesar.Smt.C77_terminating_partial"
   ],
   "note": "The decimal denotes the number for all rationals. The documented exactness for all finite decimals is refuted (limit of five digits) and proved up to five digits."
  },
  {
   "property": "C78",
   "status": "partial",
   "theorems": [
    "Caesar.Smt.Sharing.C78_collect",
    "Caesar.Smt.Sharing.C78_maximal_partial",
    "Caesar.Smt.Sharing.C78_not_full",
    "Caesar.Smt.Sharing.C78_add_not_full",
    "Caesar.Smt.Sharing.C78_add_partial",
    "Caesar.Smt.Sharing.C78_empty_not_full",
    "Caesar.Smt.Sharing.C78_value",
    "Caesar.Smt.Sharing.C78_value_not_full"
   ],
   "note": "Proved for all shared expressions with the exact rule of the code. The documented maximality, the adding of variables, the empty case and the documented constancy are refuted and proved in part."
  },
  {
   "property": "C79",
   "status": "proved",
   "theorems": [
    "Caesar.Smt.Sharing.C79_isolated",
    "Caesar.Smt.Sharing.C79_changed",
    "Caesar.Smt.Sharing.C79_copy",
    "Caesar.Smt.Sharing.C79_clone",
    "Caesar.Smt.Sharing.C79_marks_lost"
   ],
   "note": "Copy-on-write for all memories."
  },
  {
   "property": "C80",
   "status": "partial",
   "theorems": [
    "Caesar.C80_not_full",
    "Caesar.C80_verdict_partial",
    "Caesar.C80_counterexample_partial",
    "Caesar.C80_original_partial",
    "Caesar.C80_sure_partial",
    "Caesar.C80_program_partial",
    "Caesar.C80_decides_partial",
    "Caesar.C80_exit_partial",
    "Caesar.C80_ticks",
    "Caesar.C80_sampling"
   ],
   "note": "The composition of all stages of a unit. The full statement is false (C80_not_full: --opt-rel on Int). Missing in the positive theorems: signed comparisons with --opt-rel, user-written quantifiers with quantifier elimination, infinite differences (FinSub), --slice-error-inconsistent for proofs; Z3's own simplifier is not part of this composition; for functions with definitions and axioms see C83."
  },
  {
   "property": "C81",
   "status": "partial",
   "theorems": [
    "Caesar.Driver.C81_selects",
    "Caesar.Driver.C81_check",
    "Caesar.Driver.C81_accepts",
    "Caesar.Driver.C81_errors_partial",
    "Caesar.Driver.C81_not_errors",
    "Caesar.Driver.C81_deps",
    "Caesar.Driver.C81_declared_partial",
    "Caesar.Driver.C81_not_declared",
    "Caesar.Driver.C81_sound_partial",
    "Caesar.Driver.C81_not_sound"
   ],
   "note": "Refuted as a whole (C81_not_errors, C81_not_sound, C81_not_declared); proved for filters which keep the cycles of calls through the selected procedures resp. all procedures they depend on."
  },
  {
   "property": "C82",
   "status": "proved",
   "theorems": [
    "Caesar.Driver.C82_formula",
    "Caesar.Driver.C82_closed",
    "Caesar.Driver.C82_axioms",
    "Caesar.Driver.C82_all_declared"
   ],
   "note": "For programs without --filter. Sorts of domain types are left out."
  },
  {
   "property": "C83",
   "status": "partial",
   "theorems": [
    "Caesar.Driver.C83_partial",
    "Caesar.Driver.C83_program_partial",
    "Caesar.Driver.C83_not_full"
   ],
   "note": "Proved for the fragments of C80 (units) and C51 (functions: no strengthened encoding on constrained parameter types, no extended-real extrema in definitions), without --slice-error-inconsistent, also for whole programs. The full statement is refuted (C83_not_full). Missing: that counterexamples exist for a meaning which satisfies the definitions."
  },
  {
   "property": "C84",
   "status": "partial",
   "theorems": [
    "Caesar.C84_partial",
    "Caesar.C84_verified_partial",
    "Caesar.C84_not_full",
    "Caesar.C84_not_total",
    "Caesar.C84_not_enough",
    "Caesar.C84_loop_error"
   ],
   "note": "Proved for procedures that can be explained (loops with invariants, unrolled loops without calls) in the safe fragment of constant folding and without negations. Refuted in general: sequential substitution of arguments (C84_not_full), panics for calls in unrolled loops (C84_not_total); verified procedures have their precondition below what is shown, the converse is refuted (C84_not_enough)."
  },
  {
   "property": "C85",
   "status": "partial",
   "theorems": [
    "Caesar.Mc.C85_found",
    "Caesar.Mc.C85_own_partial",
    "Caesar.Mc.C85_reward",
    "Caesar.Mc.C85_success",
    "Caesar.Mc.C85_read",
    "Caesar.Mc.C85_number",
    "Caesar.Mc.C85_text",
    "Caesar.Mc.C85_not_full",
    "Caesar.Mc.C85_timeout",
    "Caesar.Mc.C85_settings",
    "Caesar.Mc.C85_timeout_not_full",
    "Caesar.Mc.C85_no_panic",
    "Caesar.Mc.C85_panics",
    "Caesar.Mc.C85_state_limit",
    "Caesar.Mc.C85_all_states",
    "Caesar.Mc.C85_operator",
    "Caesar.Mc.C85_units",
    "Caesar.Mc.C85_nothing",
    "Caesar.Mc.C85_files",
    "Caesar.Mc.C85_failures"
   ],
   "note": "Refuted for reports with several properties (C85_not_full) and for the timeout (C85_timeout_not_full); proved for the reports that Caesar asks for, and everything else. Storm is arbitrary; its output format is specified in Mc/StormSpec.lean."
  },
  {
   "property": "C86",
   "status": "partial",
   "theorems": [
    "Caesar.Mc.C86_exported",
    "Caesar.Mc.C86_fails",
    "Caesar.Mc.C86_found",
    "Caesar.Mc.C86_types",
    "Caesar.Mc.C86_not_full",
    "Caesar.Mc.C86_meaning_partial",
    "Caesar.Mc.C86_local"
   ],
   "note": "Equality of meanings is refuted for recursive functions, proved for all others; the other parts are proved in full."
  },
  {
   "property": "C87",
   "status": "partial",
   "theorems": [
    "Caesar.Mc.C87_meaning",
    "Caesar.Mc.C87_le_sum",
    "Caesar.Mc.C87_sum_le",
    "Caesar.Mc.C87_sum_partial",
    "Caesar.Mc.C87_terminating",
    "Caesar.Mc.C87_unbounded_partial",
    "Caesar.Mc.C87_not_full_sum",
    "Caesar.Mc.C87_not_full_unbounded",
    "Caesar.Mc.C87_coassume_wrong"
   ],
   "note": "The documented readings are refuted for models with choices and for coassume. Proved without choices and coassume, with one-sided bounds for procs and coprocs, for models whose edges carry no rewards (OneBounded) in the case of the sum."
  },
  {
   "property": "C88",
   "status": "proved",
   "theorems": [
    "Caesar.Smt.C88_text",
    "Caesar.Smt.C88_array",
    "Caesar.Smt.C88_determines",
    "Caesar.Smt.C88_negative"
   ],
   "note": "Text of arrays and lists for all chains of stores; unique readability for nested lists with at most sixteen elements each."
  },
  {
   "property": "C89",
   "status": "partial",
   "theorems": [
    "Caesar.Driver.Query.C89_header",
    "Caesar.Driver.Query.C89_comments",
    "Caesar.Driver.Query.C89_header_lines",
    "Caesar.Driver.Query.C89_options",
    "Caesar.Driver.Query.C89_query",
    "Caesar.Driver.Query.C89_first",
    "Caesar.Driver.Query.C89_z3_options",
    "Caesar.Driver.Query.C89_inside",
    "Caesar.Driver.Query.C89_files_partial",
    "Caesar.Driver.Query.C89_stopped",
    "Caesar.Driver.Query.C89_no_directory",
    "Caesar.Driver.Query.C89_not_full"
   ],
   "note": "Proved for paths whose segments are names; refuted for paths with '..' (C89_not_full)."
  },
  {
   "property": "C90",
   "status": "partial",
   "theorems": [
    "Caesar.Driver.Verdict.C90_records",
    "Caesar.Driver.Verdict.C90_sound",
    "Caesar.Driver.Verdict.C90_same",
    "Caesar.Driver.Verdict.C90_text",
    "Caesar.Driver.Verdict.C90_error",
    "Caesar.Driver.Verdict.C90_labels",
    "Caesar.Driver.Verdict.C90_blame",
    "Caesar.Driver.Verdict.C90_status",
    "Caesar.Driver.Verdict.C90_map",
    "Caesar.Driver.Verdict.C90_generated",
    "Caesar.Driver.Verdict.C90_refuted_partial",
    "Caesar.Driver.Verdict.C90_verified_partial",
    "Caesar.Driver.Verdict.C90_not_full",
    "Caesar.Driver.Verdict.C90_line",
    "Caesar.Driver.Verdict.C90_raw",
    "Caesar.Driver.Verdict.C90_note",
    "Caesar.Driver.Verdict.C90_messages"
   ],
   "note": "Proved: the records, texts, errors and labels for all bodies, and the map for all lists of units; the meaning of the texts for refutations of procedures without calls and for proofs as in C58. Refuted: refutations of procedures with calls (C90_not_full), which are not recorded as approximations."
  },
  {
   "property": "C91",
   "status": "partial",
   "theorems": [
    "Caesar.Driver.Warnings.C91_exit",
    "Caesar.Driver.Warnings.C91_partial",
    "Caesar.Driver.Warnings.C91_not_full",
    "Caesar.Driver.Warnings.C91_stricter",
    "Caesar.Driver.Warnings.C91_sliced",
    "Caesar.Driver.Warnings.C91_printed",
    "Caesar.Driver.Warnings.C91_results",
    "Caesar.Driver.Warnings.C91_stops",
    "Caesar.Driver.Warnings.C91_reason"
   ],
   "note": "Proved: the exact condition for exit code 0 (C91_exit), the diagnostics printed, the results with and without --werr. The documented meaning of --werr holds for runs without advice (C91_partial) and is refuted otherwise (C91_not_full)."
  },
  {
   "property": "C92",
   "status": "partial",
   "theorems": [
    "Caesar.ProofRules.Unpack.C92_partial",
    "Caesar.ProofRules.Unpack.C92_written",
    "Caesar.ProofRules.Unpack.C92_fine",
    "Caesar.ProofRules.Unpack.C92_loops",
    "Caesar.ProofRules.Unpack.C92_message",
    "Caesar.ProofRules.Unpack.C92_panics",
    "Caesar.ProofRules.Unpack.C92_not_full"
   ],
   "note": "C92_partial: the only panics are for numbers of at least 2^128 (which do panic: C92_panics, C92_not_full). C92_written, C92_fine, C92_loops: accepted bodies. C92_message: slicing messages."
  },
  {
   "property": "C93",
   "status": "partial",
   "theorems": [
    "Caesar.ProofRules.Unpack.C93_partial",
    "Caesar.ProofRules.Unpack.C93_refused",
    "Caesar.ProofRules.Unpack.C93_raw",
    "Caesar.ProofRules.Unpack.C93_not_full"
   ],
   "note": "C93_partial: under the assumption that no loop without annotation is at the top level, without which the claim is refuted (C93_not_full; such loops are refused later). C93_refused and C93_raw have no such assumption."
  },
  {
   "property": "C94",
   "status": "partial",
   "theorems": [
    "Caesar.Server.C94_partial",
    "Caesar.Server.C94_status",
    "Caesar.Server.C94_unit",
    "Caesar.Server.C94_labels",
    "Caesar.Server.C94_total",
    "Caesar.Server.C94_title",
    "Caesar.Server.C94_not_full"
   ],
   "note": "C94_partial: without models for unknown results, for which the claim about statements is refuted (C94_not_full; the command line has a warning: C94_title). The other parts have no assumption: C94_status, C94_unit (also which diagnostics the statements get), C94_labels, C94_total."
  },
  {
   "property": "C95",
   "status": "partial",
   "theorems": [
    "Caesar.C95_partial",
    "Caesar.C95_sorts",
    "Caesar.C95_domains",
    "Caesar.C95_fresh",
    "Caesar.C95_lits",
    "Caesar.C95_symbols",
    "Caesar.C95_stable",
    "Caesar.C95_not_symbols",
    "Caesar.C95_not_full"
   ],
   "note": "Proved for accepted programs (different global names) and all encoders. The table of symbols alone does not keep identifiers apart as its comment says (C95_not_symbols), and texts of functions can be those of constructors (C95_not_full); both are refuted."
  },
  {
   "property": "C96",
   "status": "partial",
   "theorems": [
    "Caesar.Diag.C96_partial",
    "Caesar.Diag.C96_panics",
    "Caesar.Diag.C96_dummy",
    "Caesar.Diag.C96_shown",
    "Caesar.Diag.C96_publish",
    "Caesar.Diag.C96_total",
    "Caesar.Diag.C96_not_full"
   ],
   "note": "Full claim refuted: labels without messages are not sent. Proved for all labels with messages, with panics characterised."
  },
  {
   "property": "C97",
   "status": "partial",
   "theorems": [
    "Caesar.Driver.Query.C97_partial",
    "Caesar.Driver.Query.C97_exact",
    "Caesar.Driver.Query.C97_ematching",
    "Caesar.Driver.Query.C97_extremum",
    "Caesar.Driver.Query.C97_names",
    "Caesar.Driver.Query.C97_ids",
    "Caesar.Driver.Query.C97_origin",
    "Caesar.Driver.Query.C97_line_break",
    "Caesar.Driver.Query.C97_not_full",
    "Caesar.Driver.Query.C97_not_files",
    "Caesar.Driver.Query.C97_not_axioms"
   ],
   "note": "Full claim refuted: infima and suprema and functions whose names start with mbqi_ are instantiated by models in every mode. The exact set of quantifiers is proved."
  },
  {
   "property": "C98",
   "status": "partial",
   "theorems": [
    "Caesar.Smt.Sharing.C98_partial",
    "Caesar.Smt.Sharing.C98_unshared",
    "Caesar.Smt.Sharing.C98_exponential",
    "Caesar.Smt.Sharing.C98_not_full"
   ],
   "note": "Exact statistics and an unchanged expression are proved for all memories. Refuted: gathering statistics copies shared nodes, with exponential growth in the worst case."
  },
  {
   "property": "C99",
   "status": "partial",
   "theorems": [
    "Caesar.Layout.C99_partial",
    "Caesar.Layout.C99_distinct",
    "Caesar.Layout.C99_no_block",
    "Caesar.Layout.C99_casts",
    "Caesar.Layout.C99_half",
    "Caesar.Layout.C99_not_casts",
    "Caesar.Layout.C99_not_full"
   ],
   "note": "Which steps are shown and which casts are left is proved exactly. Refuted: steps that fit are dropped if equal texts are merged later, and casts of casts leave casts."
  }
 ]
}