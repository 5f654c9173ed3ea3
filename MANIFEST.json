{
 "claims": [
  {
   "property": "C01",
   "status": "proved",
   "theorems": [
    "Acorn.C01_decompose_node",
    "Acorn.C01_decompose_atom",
    "Acorn.C01_apply_total",
    "Acorn.C01_apply_result",
    "Acorn.C01_read_back",
    "Acorn.C01_encode_injective",
    "Acorn.C01_subterm_end",
    "Acorn.C01_size_bound_needed"
   ],
   "note": "Round trip of the flat component vector for all terms below 2^16 components; C01_size_bound_needed exhibits the truncation above that."
  },
  {
   "property": "C02",
   "status": "proved",
   "theorems": [
    "Acorn.C02_validate_iff",
    "Acorn.C02_validate_read"
   ],
   "note": "Validation accepts exactly the encodings of terms."
  },
  {
   "property": "C03",
   "status": "proved",
   "theorems": [
    "Acorn.C03_get_iff",
    "Acorn.C03_replace_total",
    "Acorn.C03_get_replace",
    "Acorn.C03_replace_self",
    "Acorn.C03_replace_frame",
    "Acorn.C03_replace_comm",
    "Acorn.C03_rewritable_sound",
    "Acorn.C03_rewritable_complete",
    "Acorn.C03_rewritable_nodup",
    "Acorn.C03_rewritable_total"
   ],
   "note": "Path laws and enumeration of rewritable sub-terms."
  },
  {
   "property": "C04",
   "status": "proved",
   "theorems": [
    "Acorn.C04_open_total",
    "Acorn.C04_open_value",
    "Acorn.C04_shift_down_up",
    "Acorn.C04_subst_value",
    "Acorn.C04_not_escaping",
    "Acorn.C04_open_abstract",
    "Acorn.C04_abstract_open"
   ],
   "note": "Opening has the value of substitution in every interpretation."
  },
  {
   "property": "C05",
   "status": "partial",
   "theorems": [
    "Acorn.C05_checked_sound_partial",
    "Acorn.C05_checked_typed_partial",
    "Acorn.C05_get_type",
    "Acorn.C05_get_type_sound",
    "Acorn.C05_class_argument_partial",
    "Acorn.C05_type0_in_itself",
    "Acorn.C05_element_as_class_argument"
   ],
   "note": "The full property is false of the code: C05_type0_in_itself and C05_element_as_class_argument are witnesses. Proved: soundness for terms whose skipped parts are also accepted (DeepOk), and correctness of the unchecked type computation on well-typed terms."
  },
  {
   "property": "C06",
   "status": "partial",
   "theorems": [
    "Acorn.C06_refl",
    "Acorn.C06_oriented",
    "Acorn.C06_eq_iff",
    "Acorn.C06_lt_trans",
    "Acorn.C06_binders_not_total"
   ],
   "note": "Total order (reflexive, oriented, Equal only on equal terms, transitive) on binder-free terms; C06_binders_not_total shows that transitivity fails once binders are present."
  },
  {
   "property": "C07",
   "status": "proved",
   "theorems": [
    "Acorn.C07_stable",
    "Acorn.C07_context",
    "Acorn.C07_well_founded",
    "Acorn.C07_agrees",
    "Acorn.C07_wrap"
   ],
   "note": "Stability under substitution, compatibility with contexts, well-foundedness and agreement with the extended order, for weights below the u32 range; C07_wrap shows the wrap-around above it."
  },
  {
   "property": "C08",
   "status": "proved",
   "theorems": [
    "Acorn.C08_new",
    "Acorn.C08_signed",
    "Acorn.C08_negate",
    "Acorn.C08_tautology",
    "Acorn.C08_impossible",
    "Acorn.C08_oriented",
    "Acorn.C08_symmetric"
   ],
   "note": "For every interpretation, not only lawful ones. Order-independence of the constructor is stated for sides without binders (C06)."
  },
  {
   "property": "C09",
   "status": "partial",
   "theorems": [
    "Acorn.C09_new_partial",
    "Acorn.C09_true_of_normalized_partial",
    "Acorn.C09_normalized_true_partial",
    "Acorn.C09_no_panic",
    "Acorn.C09_unused_variable_of_empty_type",
    "Acorn.C09_normal_form",
    "Acorn.C09_tautology",
    "Acorn.C09_tautology_of_sorted",
    "Acorn.C09_unsorted_tautology_wrong"
   ],
   "note": "Clause::new for well typed literals whose types do not mention values; the direction original => normalized needs inhabited variable types (counterexample proved). Panic freedom, normal form shape and tautology test hold without typing."
  },
  {
   "property": "C10",
   "status": "proved",
   "theorems": [
    "Acorn.C10_match",
    "Acorn.C10_same_value",
    "Acorn.C10_typed_partial",
    "Acorn.C10_typed_polymorphic_partial",
    "Acorn.C10_class_variable_mismatched",
    "Acorn.C10_greedy",
    "Acorn.C10_untyped",
    "Acorn.C10_literal"
   ],
   "note": "Matching (typed and untyped) yields an instance up to swapped equality sides; untyped matching is complete. Typing of the found map is proved for contexts whose type variables are already mapped (_partial); C10_class_variable_mismatched shows it is wrong for typeclass-constrained type variables."
  },
  {
   "property": "C11",
   "status": "proved",
   "theorems": [
    "Acorn.C11_value",
    "Acorn.C11_literal",
    "Acorn.C11_clause",
    "Acorn.C11_typed",
    "Acorn.C11_context",
    "Acorn.C11_context_ground",
    "Acorn.C11_stale_type",
    "Acorn.C11_captured_variable"
   ],
   "note": "Values of specialized terms and literals, truth and typing of specialized clauses for well-typed maps. C11_stale_type and C11_captured_variable show that the code does not itself ensure the well-typedness of the result."
  },
  {
   "property": "C12",
   "status": "proved",
   "theorems": [
    "Acorn.C12_typed",
    "Acorn.C12_common_instance",
    "Acorn.C12_instance_exists",
    "Acorn.C12_kept",
    "Acorn.C12_no_cycle",
    "Acorn.C12_same_term",
    "Acorn.C12_same_value",
    "Acorn.C12_literals",
    "Acorn.C12_match_instance"
   ],
   "note": "Every successful unification gives a common instance, keeps earlier inputs and leaves no cyclic binding, for every sequence of calls; runs in which type unification has already bound the very variable about to be bound are cut off in the model (the code overwrites the binding there)"
  },
  {
   "property": "C13",
   "status": "partial",
   "theorems": [
    "Acorn.C13_sound_partial",
    "Acorn.C13_true_partial",
    "Acorn.C13_typed_partial",
    "Acorn.C13_empty_type_unsound"
   ],
   "note": "Soundness at each assignment and truth preservation when dropped variables range over inhabited types, for literals typed by the restricted judgement (no types that mention values) and function disequalities at simple types. Counterexample for a dropped variable over an empty type."
  },
  {
   "property": "C14",
   "status": "partial",
   "theorems": [
    "Acorn.C14_sets_sufficient_partial"
   ],
   "note": "For literals typed by the restricted judgement and function disequalities at simple types; any inhabitedness filter."
  },
  {
   "property": "C15",
   "status": "partial",
   "theorems": [
    "Acorn.C15_injectivity_partial",
    "Acorn.C15_injectivity_lambda_unsound",
    "Acorn.C15_extensionality_partial",
    "Acorn.C15_extensionality_type_unsound",
    "Acorn.C15_resolution_partial",
    "Acorn.C15_factoring_partial",
    "Acorn.C15_resolution_sort_unsound"
   ],
   "note": "Injectivity, extensionality, equality resolution and equality factoring are each proved sound under stated side conditions (literal lists before Clause::new): resolution and factoring for value variables and terms without quantification over types; extensionality when no peeled type variable occurs in the type of another variable; injectivity for atom-headed applications. Without the side conditions the rules are proved unsound by concrete witnesses."
  },
  {
   "property": "C16",
   "status": "partial",
   "theorems": [
    "Acorn.C16_normalize_term_partial",
    "Acorn.C16_beta_reduce_partial",
    "Acorn.C16_normalize_idempotent",
    "Acorn.C16_normalize_deterministic",
    "Acorn.C16_clause_term_partial",
    "Acorn.C16_clause_term_negative_partial",
    "Acorn.C16_signed_term_partial",
    "Acorn.C16_eta_over_class_changes_value"
   ],
   "note": "False in full: C16_eta_over_class_changes_value. Proved for the simply typed fragment (SHasType): beta, eta, double negation, equality orientation, negation normal form keep type and value; results are fixed points and do not depend on the number of steps. Missing: type families over values."
  },
  {
   "property": "C17",
   "status": "proved",
   "theorems": [
    "Acorn.C17_contradiction_real"
   ],
   "note": "Any history, any hash order, any number of steps; terms typed in the judgement without value-dependent types."
  },
  {
   "property": "C18",
   "status": "proved",
   "theorems": [
    "Acorn.C18_evaluate",
    "Acorn.C18_check"
   ],
   "note": "Literals, clause checks and stored-clause lookups; same scope as C17."
  },
  {
   "property": "C19",
   "status": "proved",
   "theorems": [
    "Acorn.C19_congruence",
    "Acorn.C19_closed",
    "Acorn.C19_swapped",
    "Acorn.C19_kept",
    "Acorn.C19_asserted",
    "Acorn.C19_separated",
    "Acorn.C19_answers"
   ],
   "note": "For every history and hash order: terms held equal are closed under application and exchange of embedded equations, stay equal, asserted equations and disequalities take effect, and answers are exactly what the graph holds."
  },
  {
   "property": "C20",
   "status": "proved",
   "theorems": [
    "Acorn.C20_no_panic",
    "Acorn.C20_symmetric"
   ],
   "note": "For every history of API calls from the empty graph, with every hash iteration order and every amount of fuel, each call returns or is still running; no unwrap, index or exhausted remap chain is reached. Termination is not part of this claim."
  },
  {
   "property": "C21",
   "status": "proved",
   "theorems": [
    "Acorn.C21_index",
    "Acorn.C21_canonical",
    "Acorn.C21_faithful",
    "Acorn.C21_meaning",
    "Acorn.C21_orientation"
   ],
   "note": "Both indexes list exactly the stored clauses after every history; identifiers canonical, faithful and meaning preserving."
  },
  {
   "property": "C22",
   "status": "partial",
   "theorems": [
    "Acorn.C22_contradiction_real_partial",
    "Acorn.C22_accepted_entailed_partial",
    "Acorn.C22_empty_type_unsound",
    "Acorn.C22_empty_type_real_partial"
   ],
   "note": "For every sequence of insertions, mode changes and checks (any iteration order of the hash tables): a reported contradiction means the asserted clauses have no model without empty types, and an accepted clause is true in every such model. Missing: clauses with type variables; models with empty types, for which the claim is false (C22_empty_type_unsound)."
  },
  {
   "property": "C23",
   "status": "partial",
   "theorems": [
    "Acorn.C23_accepted_proves_partial",
    "Acorn.C23_no_arguments_partial",
    "Acorn.C23_fresh_witnesses_partial",
    "Acorn.C23_general_form_unsound"
   ],
   "note": "The check of certificates is modelled step by step. Proved for clauses without type variables and interpretations without empty types, if the general form of every claim that a step makes known would be accepted itself or is entailed. Declared witnesses are either assumed to be chosen well, or need only have new names (C23_fresh_witnesses_partial). Without the condition on general forms the property is false of the code (C23_general_form_unsound). Parsing of the code lines is not modelled."
  },
  {
   "property": "C24",
   "status": "proved",
   "theorems": [
    "Acorn.C24_succeeds",
    "Acorn.C24_same",
    "Acorn.C24_earlier"
   ],
   "note": ""
  },
  {
   "property": "C25",
   "status": "proved",
   "theorems": [
    "Acorn.C25_lookup",
    "Acorn.C25_count",
    "Acorn.C25_unused",
    "Acorn.C25_save_load",
    "Acorn.C25_load"
   ],
   "note": "Worklist histories, unused certificates, save/load round trip and load as decoding of the non-blank lines."
  },
  {
   "property": "C26",
   "status": "partial",
   "theorems": [
    "Acorn.C26_witness_real_partial",
    "Acorn.C26_guard_real_partial",
    "Acorn.C26_drop_sound_partial",
    "Acorn.C26_reduction_sound_partial",
    "Acorn.C26_recorded_real_partial",
    "Acorn.C26_refused_nothing",
    "Acorn.C26_refused_reductions",
    "Acorn.C26_argument_class_ignored",
    "Acorn.C26_wrong_parameter",
    "Acorn.C26_one_instance_enough",
    "Acorn.C26_base_instance",
    "Acorn.C26_own_witness",
    "Acorn.C26_open_claim"
   ],
   "note": "Proved: the witness search finds real elements from honest declarations; the guard, the normalization of derived clauses and the boolean reductions are sound with empty types for clauses about values; refusals infer nothing. False in general, with counterexamples: class constraints of providers ignored, wrong type parameter recorded, one inhabited instance suffices, base-class instances, a dropped type variable is its own witness, open existence claims. Missing: polymorphic clauses."
  },
  {
   "property": "C27",
   "status": "partial",
   "theorems": [
    "Acorn.C27_edge_roundtrip",
    "Acorn.C27_key_exists",
    "Acorn.C27_term",
    "Acorn.C27_pair",
    "Acorn.C27_clause",
    "Acorn.C27_empty_clause",
    "Acorn.C27_types_not_encoded"
   ],
   "note": "Keys of terms, pairs and non-empty clauses are injective and prefix-free, for 16-bit ids; edges parse back. Not as claimed: the types of the variables are not part of a key, the empty clause has the empty key, and terms with typeclasses have no key (panic); each is proved."
  },
  {
   "property": "C28",
   "status": "partial",
   "theorems": [
    "Acorn.C28_pair_sound",
    "Acorn.C28_pair_typed",
    "Acorn.C28_pair_total",
    "Acorn.C28_pair_complete",
    "Acorn.C28_hidden_by_types",
    "Acorn.C28_phantom_type_variable",
    "Acorn.C28_stack_limit",
    "Acorn.C28_clause_sound",
    "Acorn.C28_clause_total",
    "Acorn.C28_clause_complete",
    "Acorn.C28_empty_clause_panics",
    "Acorn.C28_term_sound",
    "Acorn.C28_term_complete",
    "Acorn.C28_term_not_cut",
    "Acorn.C28_literal_sound",
    "Acorn.C28_literal_agree"
   ],
   "note": "Soundness for every tree built by insertions (pairs, clauses, terms with several values, literal sets with the reversed direction and variable map), typed replacements and absence of panics for plain variable types, completeness for patterns numbered by first occurrence. Missing: completeness where the type of a pattern variable is compound and polymorphic, and for literal sets. Counterexamples to the unconditional property are proved (same pair with other types, type variable that does not occur, stack limit, empty clause)."
  },
  {
   "property": "C29",
   "status": "partial",
   "theorems": [
    "Acorn.C29_unify",
    "Acorn.C29_specialize",
    "Acorn.C29_lookup",
    "Acorn.C29_only_stored",
    "Acorn.C29_lookup_literal",
    "Acorn.C29_unifier_partial",
    "Acorn.C29_swapped_equality_missed",
    "Acorn.C29_applied_lambda_missed",
    "Acorn.C29_type_lookup_missed"
   ],
   "note": "Fingerprints of well-typed terms with a common well-typed instance are compatible, and index lookups return every such entry; proved for all terms in which no lambda is applied (the code is wrong there, C29_applied_lambda_missed) and values in lookups (C29_type_lookup_missed). Equality terms whose sides the unifier swaps are missed (C29_swapped_equality_missed)."
  },
  {
   "property": "C30",
   "status": "partial",
   "theorems": [
    "Acorn.C30_shrinks_partial",
    "Acorn.C30_well_founded_partial",
    "Acorn.C30_total",
    "Acorn.C30_value_params_unsound"
   ],
   "note": "Holds for functions without value parameters of the enclosing datatype; C30_value_params_unsound proves that the checker accepts a non-terminating method otherwise."
  },
  {
   "property": "C31",
   "status": "proved",
   "theorems": [
    "Acorn.C31_total",
    "Acorn.C31_order",
    "Acorn.C31_acyclic",
    "Acorn.C31_absent"
   ],
   "note": "All dependency graphs built by the code are acyclic, so the cycle branch is unreachable (proved)."
  },
  {
   "property": "C32",
   "status": "proved",
   "theorems": [
    "Acorn.C32_bucket",
    "Acorn.C32_one_filter",
    "Acorn.C32_single",
    "Acorn.C32_parse",
    "Acorn.C32_round_trip",
    "Acorn.C32_valid"
   ],
   "note": "SHA-256 is a parameter."
  },
  {
   "property": "C33",
   "status": "proved",
   "theorems": [
    "Acorn.C33_splice",
    "Acorn.C33_other_changes",
    "Acorn.C33_open_save",
    "Acorn.C33_line_table",
    "Acorn.C33_prefix",
    "Acorn.C33_env_line",
    "Acorn.C33_carriage_return_lost"
   ],
   "note": "Exact up to one exception proved in C33_carriage_return_lost. Columns count Unicode scalars, as in the code; LSP clients count UTF-16 units by default."
  },
  {
   "property": "C34",
   "status": "partial",
   "theorems": [
    "Acorn.Build.C34_all_dependencies",
    "Acorn.Build.C34_decision",
    "Acorn.Build.C34_full_builds_partial",
    "Acorn.Build.C34_own_content_partial",
    "Acorn.Build.C34_stale_skip",
    "Acorn.Build.C34_failed_module_skipped"
   ],
   "note": "Proved: the compared modules are exactly the transitive imports; the skip decision outright; for every history of full builds a skipped module was checked with the same content of itself and all dependencies; for every history each of them was checked with its own present content. Disproved for partial builds: C34_stale_skip, C34_failed_module_skipped."
  },
  {
   "property": "C35",
   "status": "partial",
   "theorems": [
    "Acorn.Build.C35_batch",
    "Acorn.Build.C35_in_order",
    "Acorn.Build.C35_outcome_partial",
    "Acorn.Build.C35_manifests_partial",
    "Acorn.Build.C35_status",
    "Acorn.Build.C35_counts",
    "Acorn.Build.C35_progress",
    "Acorn.Build.C35_terminates",
    "Acorn.Build.C35_early_stop_differs"
   ],
   "note": "Proved for every execution that is not stopped early, and the status for every execution. Disproved when the build stops at the first warning: C35_early_stop_differs. Manifest entries need that hashes recorded for one place agree."
  },
  {
   "property": "C36",
   "status": "proved",
   "theorems": [
    "Acorn.C36_merge_updates",
    "Acorn.C36_merge_certificates",
    "Acorn.C36_saved",
    "Acorn.C36_manifest_atomic",
    "Acorn.C36_elsewhere",
    "Acorn.C36_manifest_written",
    "Acorn.C36_certificates_written",
    "Acorn.C36_certificates_not_atomic"
   ],
   "note": "Merging and atomic manifest saves, for every crash point. Certificate files are not saved atomically: C36_certificates_not_atomic."
  },
  {
   "property": "C37",
   "status": "partial",
   "theorems": [
    "Acorn.C37_layout",
    "Acorn.C37_dotted",
    "Acorn.C37_name_path_partial",
    "Acorn.C37_path_name",
    "Acorn.C37_outside",
    "Acorn.C37_distinct_partial",
    "Acorn.C37_distinct_files",
    "Acorn.C37_interface_alias",
    "Acorn.C37_canonical",
    "Acorn.C37_cert_layout",
    "Acorn.C37_cert_reload_partial",
    "Acorn.C37_cert_distinct",
    "Acorn.C37_cert_place",
    "Acorn.C37_cert_distinct_files",
    "Acorn.C37_certs_lost",
    "Acorn.C37_top_interface_lost",
    "Acorn.C37_manifest_apart"
   ],
   "note": "One-to-one outside of two exceptions, which are proved: pkg.interface is a second name of pkg, and modules below a directory named certs lose their certificates."
  },
  {
   "property": "C38",
   "status": "proved",
   "theorems": [
    "Acorn.C38_stack_exact",
    "Acorn.C38_restores",
    "Acorn.C38_bind",
    "Acorn.C38_insert_twice_not_dense"
   ],
   "note": "Histories of argument lists, patterns and local bindings; the evaluation of types is a parameter."
  },
  {
   "property": "C39",
   "status": "proved",
   "theorems": [
    "Acorn.C39_tiles",
    "Acorn.C39_determined",
    "Acorn.C39_text",
    "Acorn.C39_order",
    "Acorn.C39_start_line"
   ],
   "note": "For every source text and every Unicode alphanumeric table. Lines longer than u32 bytes are not modelled."
  },
  {
   "property": "C40",
   "status": "proved",
   "theorems": [
    "Acorn.C40_transitive",
    "Acorn.C40_acyclic",
    "Acorn.C40_modules_agree",
    "Acorn.C40_store",
    "Acorn.C40_ids_distinct",
    "Acorn.C40_direct_order_matters"
   ],
   "note": "Elaborator binding maps over any modules and imports, and the kernel type store. Attribute conflicts (which only reject declarations) and the u16 bound on local ids are not modelled."
  },
  {
   "property": "C41",
   "status": "proved",
   "theorems": [
    "Acorn.C41_replay"
   ],
   "note": ""
  },
  {
   "property": "C42",
   "status": "partial",
   "theorems": [
    "Acorn.C42_roundtrip",
    "Acorn.C42_unambiguous",
    "Acorn.C42_nothing_lost",
    "Acorn.C42_reprint",
    "Acorn.C42_terminates",
    "Acorn.C42_generate_binary_partial",
    "Acorn.C42_generate_member",
    "Acorn.C42_generate_not",
    "Acorn.C42_generate_minus_partial",
    "Acorn.C42_generate_apply_partial",
    "Acorn.C42_generated_misread",
    "Acorn.C42_forms_differ"
   ],
   "note": "Round trip, unambiguity, no lost tokens, termination are proved for all expressions that have the parentheses they need; blocks with local lets are not modelled. The generators are proved to add the parentheses that are needed except in the cases of C42_generated_misread, where the code is wrong."
  },
  {
   "property": "C43",
   "status": "partial",
   "theorems": [
    "Acorn.C43_clausify_partial",
    "Acorn.C43_disagreement_function_condition",
    "Acorn.C43_disagreement_nested_match",
    "Acorn.C43_disagreement_empty_type"
   ],
   "note": "Proved both ways for every statement that is lowered to one clause (all but definitions by cases), when no type is empty. Definitions by cases: two counterexamples (an equation between functions as a condition; a match on the result of a match). Empty types: a counterexample."
  },
  {
   "property": "C44",
   "status": "partial",
   "theorems": [
    "Acorn.C44_to_arbitrary_is_not_generic",
    "Acorn.C44_insert_stack_keeps_meaning",
    "Acorn.C44_bind_values_is_substitution",
    "Acorn.C44_disagreement_type_names_captured",
    "Acorn.C44_instantiate_is_type_substitution",
    "Acorn.C44_to_arbitrary_keeps_meaning",
    "Acorn.C44_disagreement_match_variables_stay_generic",
    "Acorn.C44_replace_constants_sound_partial",
    "Acorn.C44_disagreement_replacement_captured",
    "Acorn.C44_expand_lambdas_keeps_meaning_partial",
    "Acorn.C44_disagreement_partial_application",
    "Acorn.C44_disagreement_curried_application",
    "Acorn.C44_negation_is_negation",
    "Acorn.C44_negated_goal_is_its_failure",
    "Acorn.C44_conjuncts_and_reduce",
    "Acorn.C44_definition_says_equal",
    "Acorn.C44_exported_statement",
    "Acorn.C44_local_satisfy_alias_partial",
    "Acorn.C44_disagreement_local_satisfy_shifts_binders"
   ],
   "note": "Proved for all values, stacks and frames: insert_stack, bind_values, instantiate (names bound by type applications apart), to_arbitrary, negate, pretty_negate, negate_goal, remove_and, reduce, definitions as equations, externalize_bool; expansion of lambdas for values whose functions get all their arguments at once; replace_constants with a non-zero base; local satisfy with a witness without binders. The other cases are false: six disagreements. Not modelled: families indexed by values, termination of the expansion."
  },
  {
   "property": "C45",
   "status": "partial",
   "theorems": [
    "Acorn.C45_is_type_is_right",
    "Acorn.C45_disagreement_nested_lambda",
    "Acorn.C45_checked_values_have_types",
    "Acorn.C45_insert_stack_keeps_types",
    "Acorn.C45_bind_values_keeps_types",
    "Acorn.C45_instantiate_keeps_type",
    "Acorn.C45_instantiate_keeps_check_partial",
    "Acorn.C45_disagreement_instantiate_at_function_type",
    "Acorn.C45_disagreement_to_arbitrary_match",
    "Acorn.C45_match_is_right",
    "Acorn.C45_match_finds_instance_partial",
    "Acorn.C45_disagreement_same_name",
    "Acorn.C45_inferred_application_partial",
    "Acorn.C45_open_constant_needs_more",
    "Acorn.C45_inference_finds_parameters",
    "Acorn.C45_disagreement_fixed_type_is_inferred"
   ],
   "note": "Types of values under stack operations and instantiation, matching and inference proved for all values; the check after instantiation is proved for parameters that are not function types (false otherwise), inference when the generic type has no names but its parameters (false otherwise), completeness of matching when no parameter is replaced by a type that mentions it. Families indexed by values are left out."
  },
  {
   "property": "C46",
   "status": "partial",
   "theorems": [
    "Acorn.C46_types_keep_meaning",
    "Acorn.C46_constants_have_their_types",
    "Acorn.C46_lowering_keeps_meaning_partial",
    "Acorn.C46_statements_keep_truth_partial",
    "Acorn.C46_type_application_keeps_meaning",
    "Acorn.C46_lowering_succeeds",
    "Acorn.C46_eliminator_type_at_first_use",
    "Acorn.C46_eliminator_type_general",
    "Acorn.C46_disagreement_eliminator_equal_arguments",
    "Acorn.C46_disagreement_eliminator_fixed_field"
   ],
   "note": "The kernel term of a type or value means what the type or value means in every lawful interpretation that agrees with the theory; statements keep their truth; type applications at the head; lowering succeeds when names are in the tables. The guessed type of match eliminators is right at its first use, and everywhere if the first use is at distinct type parameters; counterexamples otherwise. Missing: families indexed by values, type applications elsewhere than at the head."
  },
  {
   "property": "C47",
   "status": "partial",
   "theorems": [
    "Acorn.C47_types_keep_meaning",
    "Acorn.C47_terms_keep_meaning_partial",
    "Acorn.C47_quoting_succeeds",
    "Acorn.C47_clauses_keep_meaning_partial",
    "Acorn.C47_monomorphic_clauses_keep_meaning_partial",
    "Acorn.C47_default_names_differ",
    "Acorn.C47_given_names_in_order",
    "Acorn.C47_clause_quoting_succeeds",
    "Acorn.C47_disagreement_applied_if",
    "Acorn.C47_disagreement_match_variables_exchanged"
   ],
   "note": "Quoted types, terms and clauses mean what the kernel's mean and quoting succeeds, for terms without match eliminators and families indexed by values; two disagreements are proved (an applied if panics, a match with a binder in a case is read back with two variables exchanged)."
  },
  {
   "property": "C48",
   "status": "partial",
   "theorems": [
    "Acorn.C48_generic_form_keeps_meaning",
    "Acorn.C48_inductive_facts_say_free",
    "Acorn.C48_inductive_facts_exist",
    "Acorn.C48_induction_constant",
    "Acorn.C48_structure_facts_say_tuples",
    "Acorn.C48_constrained_structure_facts",
    "Acorn.C48_accepted_has_model_partial",
    "Acorn.C48_structure_has_model",
    "Acorn.C48_constrained_structure_has_model",
    "Acorn.C48_disagreement_imported_contravariant",
    "Acorn.C48_disagreement_double_negation",
    "Acorn.C48_disagreement_no_base_case",
    "Acorn.C48_variance_is_polarity",
    "Acorn.C48_positivity_test",
    "Acorn.C48_generic_form_is_generic",
    "Acorn.C48_facts_are_generic"
   ],
   "note": "The facts of inductive and structure declarations say exactly that the type is freely generated, or corresponds to the tuples of fields (with a constraint: those that meet it); structures always have a model. Missing: accepted inductive types are shown to have a model only when the type occurs directly, not inside another datatype; two accepted declarations with datatype arguments are proved to have no model in any frame, so the claim is false as stated for these. Value parameters are not modelled."
  },
  {
   "property": "C49",
   "status": "partial",
   "theorems": [
    "Acorn.C49_facts_follow_partial",
    "Acorn.C49_extends_partial",
    "Acorn.C49_no_contradiction_partial",
    "Acorn.C49_visible_facts",
    "Acorn.C49_exported_facts",
    "Acorn.C49_disagreement_instance_member_frees_name"
   ],
   "note": "Proved over every frame: the facts and theorems of a module follow from its axioms, definitions and satisfy conditions when its goals are valid; statements without assumptions (definitions included that can be met, which C50 proves of accepted recursive ones) extend every interpretation; no contradiction; visible and exported facts of the lowered module. What evaluating expressions provides is a hypothesis, a block must not end with a generic statement, typeclasses, types with value parameters, imports and local obligations are left out. An instance member frees a module-level name (disagreement)."
  },
  {
   "property": "C50",
   "status": "partial",
   "theorems": [
    "Acorn.C50_one_meaning_partial",
    "Acorn.C50_stored_keeps_meaning",
    "Acorn.C50_accepted_definition_assumes_nothing_partial",
    "Acorn.C50_disagreement_instance_member_unchecked",
    "Acorn.C50_disagreement_instance_recursion_by_name",
    "Acorn.C50_disagreement_phantom_parameter"
   ],
   "note": "Proved over every frame with freely generated datatypes: a definition that passes the termination check has exactly one meaning, the stored generic form means what was evaluated, and an accepted definition of a module assumes nothing in the sense of C49. Left out: calls of the function at type arguments other than its own parameters, value parameters of datatypes, methods of datatypes with type parameters, members of typeclass instances (for which the property fails, three disagreements)."
  },
  {
   "property": "C51",
   "status": "partial",
   "theorems": [
    "Acorn.C51_one_result",
    "Acorn.C51_loaded_is_current_partial",
    "Acorn.C51_text_is_latest",
    "Acorn.C51_load_answers_partial",
    "Acorn.C51_targets_are_loaded_partial",
    "Acorn.C51_update_reloads",
    "Acorn.C51_order_does_not_matter_partial",
    "Acorn.C51_disagreement_prelude_imports"
   ],
   "note": "For all files, histories of edits and loads, and elaborators that ask about needed modules only: entries agree with the unique result of the files, loads end, errors are classified. Missing: a prelude whose imports lead back to itself (there the property fails, C51_disagreement_prelude_imports); packages with interface files."
  },
  {
   "property": "C52",
   "status": "partial",
   "theorems": [
    "Acorn.C52_start_partial",
    "Acorn.C52_every_schedule_partial",
    "Acorn.C52_progress_partial",
    "Acorn.C52_finished_partial",
    "Acorn.C52_gives_up_partial",
    "Acorn.C52_same_as_serial_partial",
    "Acorn.C52_then_history_partial",
    "Acorn.C52_disagreement_unsaved_import"
   ],
   "note": "All schedules, worker counts and preferences; all files and histories. Missing: sets of targets in which a needed module is not registered (there the property fails, C52_disagreement_unsaved_import), a circular prelude, packages."
  },
  {
   "property": "C53",
   "status": "partial",
   "theorems": [
    "Acorn.C53_targets",
    "Acorn.C53_only_dependents",
    "Acorn.C53_all_dependents_partial",
    "Acorn.C53_left_out_unchanged_partial",
    "Acorn.C53_load_is_covered_partial",
    "Acorn.C53_reload_start_partial",
    "Acorn.C53_reload_partial",
    "Acorn.C53_disagreement_through_non_target",
    "Acorn.C53_disagreement_closed_file"
   ],
   "note": "Packages are left out, open files are assumed to be on disk, and the completeness claims assume that the modules between a target and the edited module are targets; C53_disagreement_* show that the last two are needed."
  },
  {
   "property": "C54",
   "status": "proved",
   "theorems": [
    "Acorn.C54_builds_saved_text",
    "Acorn.C54_cache_is_current",
    "Acorn.C54_one_build_shown",
    "Acorn.C54_newest_shown",
    "Acorn.C54_shows_reported",
    "Acorn.C54_finished",
    "Acorn.C54_not_building",
    "Acorn.C54_newest_not_skipped",
    "Acorn.C54_newest_finishes",
    "Acorn.C54_end_of_build",
    "Acorn.C54_verified_ranges",
    "Acorn.C54_disagreement_stale_diagnostics",
    "Acorn.C54_disagreement_close_stops_build",
    "Acorn.C54_disagreement_stale_cancel",
    "Acorn.C54_disagreement_not_cancelled"
   ],
   "note": "Over all interleavings, with the project operations and the builder as parameters. Save handlers are assumed to get the lock of the build information in the order in which they changed the project (fair lock, one polling task). The events of one builder carry one build id, and the open files have distinct urls. Leftover errors of files that are not open, a build stopped by a close, and two cancellation races are proved as disagreements."
  },
  {
   "property": "C55",
   "status": "partial",
   "theorems": [
    "Acorn.C55_goals_in_turn",
    "Acorn.C55_dependencies_closed",
    "Acorn.C55_lookup_facts",
    "Acorn.C55_good",
    "Acorn.C55_found_is_good",
    "Acorn.C55_check_iff",
    "Acorn.C55_check_after_verify",
    "Acorn.C55_trimmed_accepted",
    "Acorn.C55_check_again",
    "Acorn.C55_check_never_searches",
    "Acorn.C55_filter",
    "Acorn.C55_good_goals_valid",
    "Acorn.C55_good_facts_follow_partial",
    "Acorn.C55_good_no_contradiction_partial"
   ],
   "note": "Checking a certificate, searching and writing a found proof are parameters; the end-to-end theorems assume checker and search sound and have the limits of C49. Eval mode, strict mode and package interfaces are left out."
  },
  {
   "property": "C56",
   "status": "proved",
   "theorems": [
    "Acorn.C56_only_redundant_lines",
    "Acorn.C56_lines_kept",
    "Acorn.C56_terminates",
    "Acorn.C56_crash",
    "Acorn.C56_dry_run_writes_nothing",
    "Acorn.C56_dry_run_same",
    "Acorn.C56_check_passes",
    "Acorn.C56_rest_needed",
    "Acorn.C56_disagreement_not_settled",
    "Acorn.C56_disagreement_shared_line"
   ],
   "note": "Loading a text and the search are parameters; verifying is the model of C55. C56_disagreement_not_settled and C56_disagreement_shared_line record where a user may expect more."
  },
  {
   "property": "C57",
   "status": "partial",
   "theorems": [
    "Acorn.C57_in_step",
    "Acorn.C57_popped_once",
    "Acorn.C57_len",
    "Acorn.C57_pop",
    "Acorn.C57_pop_shallow",
    "Acorn.C57_can_pop",
    "Acorn.C57_push",
    "Acorn.C57_scored",
    "Acorn.C57_contradiction",
    "Acorn.C57_contradiction_safe",
    "Acorn.C57_contradiction_partial",
    "Acorn.C57_simplify_partial",
    "Acorn.C57_simplify_old",
    "Acorn.C57_simplify_new",
    "Acorn.C57_simplified",
    "Acorn.C57_simplified_reversed",
    "Acorn.C57_run_partial",
    "Acorn.C57_disagreement_empty_type",
    "Acorn.C57_disagreement_dropped"
   ],
   "note": "Missing: variables for types, and types without elements (C57_disagreement_empty_type, C57_disagreement_dropped); contradictions between steps whose variables have different types. That typed terms do not panic is not proved here."
  },
  {
   "property": "C58",
   "status": "partial",
   "theorems": [
    "Acorn.C58_activate_steps",
    "Acorn.C58_activate_partial",
    "Acorn.C58_simplify_partial",
    "Acorn.C58_simplify_keeps_partial",
    "Acorn.C58_resolution_found",
    "Acorn.C58_resolution_partial",
    "Acorn.C58_derived_partial",
    "Acorn.C58_search_partial"
   ],
   "note": "All rules, the indexes, simplification and the main loop. Missing: types without elements, variables for types, literals that compare types or contain redexes, witnesses of existential clauses and the rewrite tree (inputs), and reported contradictions between two waiting steps whose variables have different types."
  },
  {
   "property": "C59",
   "status": "partial",
   "theorems": [
    "Acorn.C59_sound",
    "Acorn.C59_typed_partial",
    "Acorn.C59_meaning_partial",
    "Acorn.C59_complete_partial",
    "Acorn.C59_total_partial",
    "Acorn.C59_disagreement_hidden"
   ],
   "note": "All results are applications of inserted rules (full). Types, fresh variables, meaning, completeness and absence of panics are proved for rules without type variables; completeness also assumes that patterns that differ only in names have variables of the same types (otherwise it fails, C59_disagreement_hidden) and queries below 500 nodes."
  },
  {
   "property": "C60",
   "status": "partial",
   "theorems": [
    "Acorn.C60_lookup",
    "Acorn.C60_unique",
    "Acorn.C60_nested",
    "Acorn.C60_consulted",
    "Acorn.C60_range",
    "Acorn.C60_hover_partial",
    "Acorn.C60_disagreement_columns"
   ],
   "note": "C60_lookup, C60_nested and C60_range are unrestricted (except that position + 1 overflows at the last u32). Hovering is proved for ASCII lines (C60_hover_partial); on other lines the code mixes byte and UTF-16 positions (C60_disagreement_columns)."
  },
  {
   "property": "C61",
   "status": "partial",
   "theorems": [
    "Acorn.C61_opens",
    "Acorn.C61_order",
    "Acorn.C61_total",
    "Acorn.C61_witness",
    "Acorn.C61_shape",
    "Acorn.C61_typed",
    "Acorn.C61_back",
    "Acorn.C61_typed_values",
    "Acorn.C61_clause_partial",
    "Acorn.C61_search_partial",
    "Acorn.C61_conservative_partial",
    "Acorn.C61_refutation_partial"
   ],
   "note": "C61_witness, C61_typed and C61_back cover clauses with type variables and dependent types; the theorems about the normalized clause and searches are about clauses over values, in interpretations without empty types. Names of witnesses (next_name) and the registration of source-level types are not modelled."
  },
  {
   "property": "C62",
   "status": "partial",
   "theorems": [
    "Acorn.C62_never_torn_partial",
    "Acorn.C62_ready_partial",
    "Acorn.C62_stays_partial",
    "Acorn.C62_in_turn_partial",
    "Acorn.C62_installs",
    "Acorn.C62_retry_partial",
    "Acorn.C62_tidy",
    "Acorn.C62_disagreement_race",
    "Acorn.C62_disagreement_unread"
   ],
   "note": "The full claim is false (C62_disagreement_race, C62_disagreement_unread). Proved for an empty cache under every interleaving, crash and write failure, provided what is there can be read; and for processes in turn whatever was there before. Power loss is not modelled."
  },
  {
   "property": "C63",
   "status": "partial",
   "theorems": [
    "Acorn.C63_outcome",
    "Acorn.C63_stops",
    "Acorn.C63_limit",
    "Acorn.C63_shallow_only",
    "Acorn.C63_shallow_exhausted",
    "Acorn.C63_success_partial",
    "Acorn.C63_inconsistent_partial",
    "Acorn.C63_levels_partial",
    "Acorn.C63_again",
    "Acorn.C63_disagreement_again"
   ],
   "note": "What every outcome says about the state (C63_outcome), the limit, the shallow mode and stopping are proved in full. The meaning of Success leaves out ends that name two waiting steps whose variables have different types and what C58 leaves out; that of Inconsistent also contradictions in the equality graph, because what their explanation names is an input. A shallow search that is asked again after a success can report ShallowExhausted (C63_disagreement_again)."
  },
  {
   "property": "C64",
   "status": "proved",
   "theorems": [
    "Acorn.C64_key",
    "Acorn.C64_warns",
    "Acorn.C64_once",
    "Acorn.C64_blind",
    "Acorn.C64_no_certificates",
    "Acorn.C64_no_certificate",
    "Acorn.C64_targets",
    "Acorn.C64_targets_error",
    "Acorn.C64_disagreement_substring",
    "Acorn.C64_disagreement_module"
   ],
   "note": "The warnings are exactly those about imports that do not count as used, as the statement spells it out. What parsing a certificate gives and what a module exports are inputs. Disagreements: unused imports can be missed because of parts of names and because of types of the same module."
  },
  {
   "property": "C65",
   "status": "partial",
   "theorems": [
    "Acorn.C65_shift_keeps_meaning",
    "Acorn.C65_shift_no_capture",
    "Acorn.C65_rebase_keeps_meaning",
    "Acorn.C65_argument_partial",
    "Acorn.C65_closed",
    "Acorn.C65_collision",
    "Acorn.C65_has_variable",
    "Acorn.C65_round_trip",
    "Acorn.C65_round_trip_back"
   ],
   "note": "The two renumberings keep the meaning in every interpretation and undo each other; nothing is captured. Missing: that quoting gives values of the assumed form, and types that mention variables."
  },
  {
   "property": "C66",
   "status": "partial",
   "theorems": [
    "Acorn.C66_exported_facts_hold_partial",
    "Acorn.C66_claim_exact",
    "Acorn.C66_block_exact",
    "Acorn.C66_witness_unconditional",
    "Acorn.C66_only_lengths_compared",
    "Acorn.C66_internal_only"
   ],
   "note": "Every exported fact is true if the blocks are proved; exported claims and blocks say exactly what was to be proved in them; existence is unconditional. Missing: that the evaluator makes obligations on the stack of their block, which the code checks only by length."
  }
 ]
}