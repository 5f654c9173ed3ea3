{"id": "C01", "title": "Flat term storage is lossless", "statement": "Every term built with the public constructors (atom, application, pi, lambda, forall, exists) can be taken apart again: decomposing it returns exactly the pieces it was built from, and two terms with the same stored component vector are the same term. (The offsets are 16 bit, so this is claimed for terms of fewer than 65536 components.)", "quantifier": "all terms of fewer than 2^16 components, of any shape and nesting depth", "why_tests_cant": "Terms nest arbitrarily; a unit test sees finitely many component layouts, while every index computation must be right for all of them.", "anchors": ["src/kernel/term.rs: TermComponent, decompose, Term::application/pi/lambda/forall/exists, find_subterm_end_at"]}
{"id": "C02", "title": "Structure validation accepts exactly real terms", "statement": "The structural check on a component vector succeeds on a vector exactly when that vector is the stored form of some term.", "quantifier": "all component vectors, including corrupted ones", "why_tests_cant": "The set of malformed vectors is infinite; tests only try a handful.", "anchors": ["src/kernel/term.rs: validate_structure"]}
{"id": "C03", "title": "Sub-term addressing laws", "statement": "Reading a sub-term at a path and replacing the sub-term at a path agree: reading back after a replacement gives the replacement, replacing a sub-term by itself changes nothing, replacements at disjoint paths commute, and the list of rewritable sub-terms contains only genuine (path, sub-term) pairs and no duplicates of paths.", "quantifier": "all terms, all paths, all replacement terms", "why_tests_cant": "Paths and terms are unbounded.", "anchors": ["src/kernel/term.rs: get_term_at_path, replace_at_path, rewritable_subterms_with_paths"]}
{"id": "C04", "title": "Opening a binder is substitution", "statement": "Opening the body of a binder with a term yields a term whose value, in every interpretation and environment, is the value of the body with the bound variable set to the value of that term: no capture, no off-by-one in de Bruijn indices. Shifting down what was shifted up is the identity.", "quantifier": "all bodies, all replacement terms, all interpretations, all environments", "why_tests_cant": "Capture bugs show only at particular nesting depths and index combinations.", "anchors": ["src/kernel/term.rs: open_bound, substitute_bound, shift_bound, has_escaping_bound_variable"]}
{"id": "C05", "title": "Reported types are sound", "statement": "If the type checker assigns a type to a term in a local context, then in every interpretation in which each symbol inhabits its declared type and under every assignment respecting the context, the value of the term inhabits the value of that type.", "quantifier": "all terms, contexts, symbol tables, interpretations and assignments", "why_tests_cant": "Type soundness is a statement about all terms and all models.", "anchors": ["src/kernel/term.rs: get_type_with_context, checked_type_with_context, validate_application_argument"]}
{"id": "C06", "title": "Term order is a total order", "statement": "The order used to orient equations and literals (extended comparison) is reflexive, antisymmetric, transitive and total on terms without binders, and comparing equal means being the same term. For terms with binders, comparing equal does not imply identity, so the documented guarantee fails there.", "quantifier": "all pairs and triples of terms", "why_tests_cant": "Transitivity over all triples cannot be enumerated.", "anchors": ["src/kernel/term.rs: kbo_cmp, extended_kbo_cmp, partial_tiebreak, total_tiebreak, kbo_helper, multi_weight"]}
{"id": "C07", "title": "A strict term orientation survives instantiation", "statement": "If the partial order says one term is strictly greater than another then it says so after substituting any terms for the free variables in both.", "quantifier": "all pairs of first-order terms, all substitutions", "why_tests_cant": "Quantifies over all substitutions.", "anchors": ["src/kernel/term.rs: kbo_cmp, kbo_helper, dominates"]}
{"id": "C08", "title": "Literal construction and negation keep meaning", "statement": "Building a literal from a sign and two sides (with possible reordering) denotes that equation or inequation, in every interpretation; negating a literal denotes the complement; a literal reported as a tautology is true, and one reported as impossible is false, in every interpretation.", "quantifier": "all literals, interpretations and assignments", "why_tests_cant": "Truth in all models.", "anchors": ["src/kernel/literal.rs: Literal::new, new_with_flip, negate, is_tautology, is_impossible"]}
{"id": "C09", "title": "Clause normalization keeps meaning", "statement": "Normalizing a list of literals into a clause (removing impossible literals, duplicates, sorting, renumbering variables) produces a clause true in exactly the same interpretations under corresponding assignments.", "quantifier": "all literal lists, contexts and interpretations", "why_tests_cant": "Truth in all models over all clause shapes.", "anchors": ["src/kernel/clause.rs: Clause::new, normalize, normalize_var_ids"]}
{"id": "C10", "title": "Successful matching exhibits an instance", "statement": "If matching a general term against a special term succeeds with a variable map, then applying the map to the general term gives the special term, up to swapping the two sides of equality terms.", "quantifier": "all pairs of terms and starting variable maps", "why_tests_cant": "Infinite term pairs; matching has several special cases (binders, equality symmetry).", "anchors": ["src/kernel/variable_map.rs: match_terms, match_var, specialize_term"]}
{"id": "C11", "title": "Specialization is semantic instantiation", "statement": "The value of a specialized term, literal or clause under an assignment equals the value of the original under the assignment that gives each mapped variable the value of its replacement. Hence every specialization of a valid clause is valid.", "quantifier": "all terms/clauses, variable maps, interpretations and assignments", "why_tests_cant": "Must hold in all models.", "anchors": ["src/kernel/variable_map.rs: specialize_term, specialize_literal, specialize_clause", "src/kernel/certificate_step.rs: Claim::normalized_specialized_clause"]}
{"id": "C12", "title": "Unification produces a common instance", "statement": "When unification of two terms succeeds, applying the resulting substitution to both gives the same term (up to equality symmetry), and an occurs-check failure never lets a variable be bound to a term containing itself.", "quantifier": "all pairs of terms in two variable scopes and any prior unifier state", "why_tests_cant": "Unifier state is built incrementally by arbitrary histories of calls.", "anchors": ["src/kernel/unifier.rs: unify, unify_internal, unify_variable, remap, apply"]}
{"id": "C13", "title": "Boolean reductions are sound", "statement": "Every clause produced from a clause by a boolean reduction (splitting and/or/not, if-then-else, boolean equality, opening forall, negated quantifiers, function inequality) is true in every interpretation in which the source clause is true.", "quantifier": "all clauses, all reduction kinds, all literal positions, all interpretations", "why_tests_cant": "Soundness of an inference rule ranges over all models.", "anchors": ["src/kernel/clause.rs: boolean_reduction_at, find_boolean_reductions_with_locations_with_options"]}
{"id": "C14", "title": "Boolean reduction sets are sufficient", "statement": "If every clause in one of the checker's boolean reduction sets of a clause is true in an interpretation then so is the clause.", "quantifier": "all clauses, all interpretations", "why_tests_cant": "Ranges over all models.", "anchors": ["src/kernel/checker.rs: checker_boolean_reduction_sets", "src/kernel/clause.rs: boolean_reduction_at"]}
{"id": "C15", "title": "Injectivity, extensionality, equality resolution and factoring are sound", "statement": "Each clause derived by these four rules from a clause is true in every interpretation in which the source is true.", "quantifier": "all clauses, interpretations", "why_tests_cant": "Ranges over all models.", "anchors": ["src/kernel/clause.rs: find_injectivities, find_extensionality", "src/kernel/inference.rs: find_equality_resolutions, find_equality_factorings"]}
{"id": "C16", "title": "Term normalization keeps meaning", "statement": "Normalizing a term (beta, eta, double negation, orientation of equalities) and pushing negation through a clause term keep its value in every interpretation.", "quantifier": "all well-typed terms, all interpretations", "why_tests_cant": "Ranges over all models and all nestings.", "anchors": ["src/kernel/term_normalization.rs: normalize_term, normalize_clause_term_with_polarity, normalize_signed_clause_term"]}
{"id": "C17", "title": "Equality graph contradictions are real", "statement": "If the equality graph reports a contradiction after any sequence of insertions of equalities, inequalities and ground clauses, then no interpretation satisfies all of the inserted facts.", "quantifier": "all finite histories of insertions, all interpretations", "why_tests_cant": "The graph is a stateful congruence closure with pending queues: bugs depend on insertion order.", "anchors": ["src/kernel/equality_graph.rs: insert_clause, process_pending, set_terms_equal_once, set_terms_not_equal_once"]}
{"id": "C18", "title": "Equality graph answers are entailed", "statement": "If after any history of insertions the graph answers that a literal holds, fails, or that a clause holds, then this is so in every interpretation satisfying the inserted facts.", "quantifier": "all histories, all queried literals and clauses, all interpretations", "why_tests_cant": "Depends on full history.", "anchors": ["src/kernel/equality_graph.rs: evaluate_literal, check_clause, clause_exists"]}
{"id": "C19", "title": "Equality graph is closed under congruence", "statement": "After any history without contradiction, terms whose functions and arguments have been merged are themselves reported equal: equal inputs give equal outputs for every application the graph knows.", "quantifier": "all histories, all pairs of known applications", "why_tests_cant": "Order-dependent merging; tests cover a few orders.", "anchors": ["src/kernel/equality_graph.rs: remap_group, process_pending, insert_group_application"]}
{"id": "C20", "title": "Equality graph never hits its internal panics", "statement": "No history of insertions and queries makes the graph reach any of its panic/unwrap paths (already remapped group, missing inequality, asymmetric inequalities).", "quantifier": "all histories", "why_tests_cant": "Panics depend on rare merge orders.", "anchors": ["src/kernel/equality_graph.rs: remap_group, set_terms_not_equal_once, get_group_info"]}
{"id": "C21", "title": "Ground clause index is coherent", "statement": "After any history of insert and remove operations the literal and group indexes list exactly the stored clauses, and a clause identifier is canonical: two lists of literals that are equal as sets up to trivially false literals get the same identifier.", "quantifier": "all histories of operations on the clause set", "why_tests_cant": "Index drift appears only after particular histories.", "anchors": ["src/kernel/clause_set.rs: ClauseSet::insert, remove, remove_literal, remove_group, ClauseId::new"]}
{"id": "C22", "title": "The checker only affirms consequences", "statement": "If the proof checker says a clause is known (by exact match, equality graph, instance of a stored clause, or reductions) then it is true in every interpretation satisfying all facts inserted so far; if the checker reports a contradiction, no interpretation satisfies the inserted facts.", "quantifier": "all histories of insertions and checks, all interpretations", "why_tests_cant": "End-to-end soundness ranges over all histories and all models.", "anchors": ["src/kernel/checker.rs: insert_clause, check_clause, has_contradiction"]}
{"id": "C23", "title": "An accepted certificate proves its goal", "statement": "If checking a certificate succeeds then no interpretation satisfies the inserted facts together with the negated goal.", "quantifier": "all certificates (including hand-made ones), all fact bases, all interpretations", "why_tests_cant": "A checker must reject every bad certificate, not just those tried.", "anchors": ["src/certificate_trace.rs: TraceChecker::check_step, check", "src/certificate.rs: check_with_usage"]}
{"id": "C24", "title": "Trimming a proof trace keeps it well formed", "statement": "Removing unreferenced auxiliary steps never fails, keeps all other steps in order, and every remaining premise refers to the same step as before.", "quantifier": "all traces whose premises refer to earlier retained steps", "why_tests_cant": "All step/premise graphs.", "anchors": ["src/certificate_trace.rs: ProofTrace::without_unreferenced_auxiliary_steps"]}
{"id": "C25", "title": "Certificate worklist accounting", "statement": "For any store and any sequence of removals, the unused certificates are exactly those in the store whose index was never removed under its own goal; lookups list the unused certificates with that goal in store order; saving and loading do not lose, duplicate or reorder certificates.", "quantifier": "all stores, all removal sequences", "why_tests_cant": "History dependent.", "anchors": ["src/certificate.rs: CertificateWorklist, CertificateStore::append"]}
{"id": "C26", "title": "Variables are only dropped over inhabited types", "statement": "When the checker removes a variable from a clause (because simplification left it unused) the result is a consequence only because the variable's type is known inhabited; when it refuses the drop, nothing is inferred.", "quantifier": "all clauses and type stores", "why_tests_cant": "Soundness over models with empty types.", "anchors": ["src/kernel/checker.rs: eliminated_vars_inhabited"]}
{"id": "C27", "title": "Discrimination tree keys are unambiguous", "statement": "Two terms (with their types) have the same search key only if they are equal, and no key is a proper prefix of another.", "quantifier": "all terms", "why_tests_cant": "Byte encodings must be injective on an infinite set.", "anchors": ["src/kernel/pdt.rs: Edge, key_from_term, key_from_pair, key_from_clause"]}
{"id": "C28", "title": "Discrimination tree lookups return genuine generalizations and miss none", "statement": "A lookup returns a stored value only if instantiating the stored pattern with the returned replacements gives the query; and if some stored pattern generalizes the query, some result is returned.", "quantifier": "all trees built by any insert history, all queries", "why_tests_cant": "Depends on whole insert history.", "anchors": ["src/kernel/pdt.rs: find_matches_while, LiteralSet::find_generalization"]}
{"id": "C29", "title": "Fingerprint filtering never loses a unifiable or generalizing term", "statement": "If two terms unify (or one is an instance of the other) then their fingerprints are reported compatible, on the fragment without equality-symmetry.", "quantifier": "all pairs of terms", "why_tests_cant": "No false negatives over all pairs.", "anchors": ["src/kernel/fingerprint.rs: could_unify, could_specialize, FingerprintUnifier, FingerprintSpecializer"]}
{"id": "C30", "title": "Accepted recursive definitions terminate", "statement": "If the termination checker accepts a recursive function then some fixed argument position is strictly smaller, in the structural order, at every recursive call; therefore the call relation is well founded.", "quantifier": "all function bodies, all constructor values", "why_tests_cant": "Termination over all inputs.", "anchors": ["src/elaborator/termination_checker.rs: TerminationChecker::check"]}
{"id": "C31", "title": "Proof reordering is a stable topological order", "statement": "The suggested reordering of proof lines is a permutation of the lines in which each line comes after everything it depends on; it is absent exactly when nothing needs to move or the dependencies are cyclic.", "quantifier": "all dependency graphs", "why_tests_cant": "All graphs.", "anchors": ["src/proof_order.rs: unit_support_order"]}
{"id": "C32", "title": "Goal buckets partition the goals", "statement": "Every goal key falls in exactly one of the 100 buckets; for any way of splitting the buckets into complementary filters each goal is selected by exactly one filter; parsing the printed form of a filter gives an equal filter.", "quantifier": "all goal keys, all filters", "why_tests_cant": "All strings.", "anchors": ["src/goal_partition.rs: goal_bucket, GoalBucketFilter::parse, contains"]}
{"id": "C33", "title": "Editor changes are applied exactly", "statement": "Applying an edit to a live document yields the text obtained by splicing the replacement between the start and end positions, and the version and line table agree with the new text.", "quantifier": "all documents, ranges, replacement texts and edit histories", "why_tests_cant": "All edit histories and Unicode contents.", "anchors": ["src/server/live_document.rs: LiveDocument::change, split_lines, get_prefix"]}
{"id": "C34", "title": "Unchanged modules are only skipped when really unchanged", "statement": "A module's verification is skipped only when its own content hash and the hashes of all its transitive dependencies equal those recorded in a previous successful run.", "quantifier": "all projects, dependency graphs and build histories", "why_tests_cant": "Depends on build histories and graphs.", "anchors": ["src/builder.rs: try_skip_unchanged_module", "src/build_cache.rs: manifest_matches", "src/manifest.rs: Manifest"]}
{"id": "C35", "title": "Parallel verification results do not depend on the schedule", "statement": "Merging the per-module results produced by parallel workers gives the same final status, cache and event order for every completion order.", "quantifier": "all completion orders of the workers", "why_tests_cant": "All schedules.", "anchors": ["src/builder.rs: merge_pipeline_result, merge_module_build_result"]}
{"id": "C36", "title": "Build cache merging loses nothing", "statement": "Merging a new build cache over an old one keeps the new entry for each module that was rebuilt and the old entry for all others; saving is atomic, so after a crash at any point the file on disk is either entirely the old or entirely the new manifest.", "quantifier": "all caches, all crash points", "why_tests_cant": "Crash points and merge histories.", "anchors": ["src/build_cache.rs: merge_updates_from, save_merging_old", "src/manifest.rs: save"]}
{"id": "C37", "title": "Module names and file paths correspond one to one", "statement": "Mapping a module descriptor to its source or certificate path and back gives the same descriptor, and distinct modules never share a path.", "quantifier": "all module names", "why_tests_cant": "All names.", "anchors": ["src/module.rs: ModuleDescriptor", "src/build_cache.rs: cert_path_for_source_path, source_path_from_cert_path, descriptor_for_source_path"]}
{"id": "C38", "title": "Local scopes restore exactly", "statement": "Entering a scope, adding variables and leaving it restores the stack of local variables: numbering of variables is dense and each visible name maps to the index and type given at its latest insertion.", "quantifier": "all nested sequences of scope operations", "why_tests_cant": "All histories.", "anchors": ["src/elaborator/stack.rs: Stack"]}
{"id": "C39", "title": "Tokenization covers the source", "statement": "Scanning any source text produces tokens that appear in order, do not overlap, lie within their lines, and carry exactly the source text at their position; everything not covered is whitespace or comment.", "quantifier": "all source texts", "why_tests_cant": "All strings.", "anchors": ["src/syntax/token.rs: Token::scan"]}
{"id": "C40", "title": "Typeclass inheritance is transitive and acyclic", "statement": "After any sequence of typeclass declarations and module imports, the extension relation reported in every module, and by the kernel's type store whatever the order in which it learns of the typeclasses, is the transitive closure of the declared one, and no typeclass extends itself.", "quantifier": "all sequences of declarations and imports over any number of modules, all orders of lowering", "why_tests_cant": "All histories.", "anchors": ["src/elaborator/binding_map.rs: add_typeclass, import_module, typeclass_extends", "src/kernel/type_store.rs: typeclass_extends, add_typeclass, add_typeclass_extends", "src/elaborator/lowering.rs: lower_fact"]}
{"id": "C41", "title": "Listed boolean reductions can be replayed", "statement": "Every boolean reduction that the search lists for a clause, with its kind and literal index, is exactly the clause (and variable trace) obtained by asking for that kind of reduction at that literal, so a certificate step that records kind and index replays to the same clause.", "quantifier": "all clauses, all listed reductions", "why_tests_cant": "The listing and the replay are two separate pieces of code with many cases that must agree on every clause.", "anchors": ["src/kernel/clause.rs: find_boolean_reductions_with_locations_with_options, boolean_reduction_at_with_options"]}
{"id": "C42", "title": "Printed expressions read back", "statement": "Reading the tokens of a displayed expression gives the same expression: operators keep their operands, parentheses are where they are needed, and no two different expressions are displayed the same. Reading loses, adds and reorders no token, and always ends. Expressions made by the code generator have the parentheses they need.", "quantifier": "all expressions, all token sequences, all terminators", "why_tests_cant": "Precedence, associativity, prefix, postfix, type arguments and binders interact; tests sample combinations of a few operators and depths, and certificates rely on every generated line reading back as the same value.", "anchors": ["src/syntax/expression.rs: Expression::parse, parse_partial_expressions, combine_partial_expressions, pretty_ref, generate_binary, generate_unary, generate_paren_grouping, top_level_precedence", "src/syntax/token.rs: binary_precedence, unary_precedence, postfix_precedence", "src/code_generator.rs: value_to_binary_expr"]}
{"id": "C43", "title": "Statements are lowered to clauses that mean the same", "statement": "A well-typed statement (a fact, or the negation of a goal) is lowered to clauses without an error, and the clauses are true exactly when the statement is. A definition by cases is lowered to clauses that follow from it. No statement is lowered to something stronger.", "quantifier": "all well-typed statements over all signatures and type variables, all interpretations", "why_tests_cant": "Lowering opens quantifiers, lambdas and equations between functions, splits conditions and matches, drops variables and sorts literals; tests look at the clauses of a few statements and cannot say that the clauses of every statement mean the same in every interpretation.", "anchors": ["src/kernel/clausifier.rs: lower_normalized_term_to_clauses, clausify_term_to_single_clause, shallow_term_to_disjunctive_literals, try_term_to_single_literal, term_to_clause_set, term_eq_to_clause_set, instantiate_match_case", "src/kernel/extended_term.rs: ExtendedTerm::apply, eq_to_clause_set"]}
{"id": "C44", "title": "Operations on the elaborator's values keep their meaning", "statement": "Moving an expression under new variables, putting values for variables, types for type parameters or values for constants, expanding lambdas, negating a statement, splitting it into its conjuncts, turning a definition into an equation, exporting a statement from a block and binding a local name by a condition that fixes it, give expressions that mean what the operation says: no variable is captured or lost and no statement becomes stronger or weaker.", "quantifier": "all expressions of the elaborator, all stacks of variables and their values, all interpretations of types and constants", "why_tests_cant": "Variables are levels of a stack that every binder shifts; a wrong shift shows only for particular nestings of binders, and tests look at a few expressions. That the meaning is kept in every interpretation is not something a test can observe.", "anchors": ["src/elaborator/acorn_value.rs: AcornValue::insert_stack, bind_values, replace_constants, expand_lambdas, instantiate, to_arbitrary, negate, pretty_negate, remove_and, negate_goal, reduce, inflate_function_definition", "src/elaborator/block.rs: Block::externalize_bool", "src/elaborator/evaluator.rs: local_satisfy_equality_witness, evaluate_local_satisfy_let"]}
{"id": "C45", "title": "Elaborated values are well typed and inferred types are right", "statement": "The type the elaborator reports for a value is its type: the two ways to ask for it agree, a value that passes the check has one, and moving a value under new variables, putting values for variables or types for type parameters gives a value of the corresponding type that passes the check again. A generic constant that is used without its type parameters gets type parameters that make every argument and the expected type fit and that have the typeclasses the declaration asks for, and it gets them whenever there are some.", "quantifier": "all values and types of the elaborator, all stacks of variables, all typeclass declarations, all arguments and expected types", "why_tests_cant": "Function types are kept with all their arguments in one list, so replacing a parameter by a function type changes the shape of every type around it; the combinations of shapes, partial applications and typeclasses are unbounded.", "anchors": ["src/elaborator/acorn_value.rs: AcornValue::get_type, is_type, validate, has_generic, FunctionApplication::typecheck", "src/elaborator/type_unifier.rs: TypeUnifier::match_instance, try_resolve_with_inference, check_type_param_constraints", "src/elaborator/unresolved_constant.rs: UnresolvedConstant::resolve"]}
{"id": "C46", "title": "Lowering an elaborated value to a kernel term keeps its meaning", "statement": "The kernel term that an elaborated value is translated to means in every model what the value means: variables, constants with their type arguments, attributes of typeclasses at instances, lambdas, quantifiers, connectives, conditionals, matches with their cases in any order and facts at given types. Types are translated to terms for the same types, and a constant's symbol is an element of the type it was declared with. A value whose names are known is always translated.", "quantifier": "all types and values of the elaborator that fit a theory, all stacks of terms, all tables of the kernel, all interpretations and assignments", "why_tests_cant": "A term has de Bruijn indices where the value has levels of a stack, matches are sorted and lambdas are sometimes replaced by partial applications; each combination of binders is another case, and a test sees the term but not what it means in every model.", "anchors": ["src/elaborator/to_term.rs: lower_type_to_term, lower_value_to_term_with_stack, elaborate_binder_to_term, lower_match_expr_to_term, try_lower_partial_logical_lambda, register_value_symbols, register_match_symbols_for_value, replace_type_args_with_params", "src/kernel/symbol_table.rs: SymbolTable::get_symbol, get_instance_alias_symbol", "src/kernel/type_store.rs: TypeStore::to_type_term_with_vars"]}
{"id": "C47", "title": "Quoting kernel terms and clauses back to values keeps their meaning", "statement": "The value that a kernel term is turned back into, for display, for code generation or for being elaborated again, means in every model what the term means: variables, constants at types, lambdas, quantifiers, connectives and equality and conditionals with all or only some of their arguments, and matches. A clause is turned into a statement that holds exactly when the clause is true for all values of its variables. A well-typed term whose names are known is always turned back.", "quantifier": "all well-typed kernel terms and clauses, all contexts with any numbering of the variables on the stack, all tables of names, all lawful interpretations and all values of the variables", "why_tests_cant": "Tests print a few proofs. A slip in renumbering variables or in shifting under an added lambda shows only for particular nestings of binders, and the quoted value still has the right type, so nothing fails: it just says something else.", "anchors": ["src/elaborator/term_bridge.rs: quote_term, quote_literal, quote_clause, quote_type_with_context_remapped, maybe_reconstruct_match, apply_type_args_to_constant, reduce_head_lambda_application, visible_stack_size", "src/elaborator/type_store.rs: type_term_to_acorn_type_with_context"]}
{"id": "C48", "title": "Declared datatypes are what they say and cannot make the axioms inconsistent", "statement": "The facts an `inductive` declaration adds say exactly that the type is freely generated by its constructors: different constructors never give equal values, a constructor gives different values for different arguments, every value comes from a constructor, and induction holds for every predicate. The facts a `structure` declaration adds say exactly that its objects and the tuples of its fields correspond one to one, or with a constraint that its objects are exactly the tuples that meet the constraint. A declaration that is accepted has a model: for every meaning of the types it mentions there are a type and functions for which all its facts hold.", "quantifier": "all lists of constructors or fields with any argument types, all lists of type parameters, all constraints, all meanings of types and constants", "why_tests_cant": "Tests declare a few types and prove a few facts about them. Whether the facts say what is meant, for every shape of constructor, and whether the positivity test lets no paradoxical type through, are statements about all declarations and all models; one bad declaration that passes makes every theorem provable and no test fails.", "anchors": ["src/elaborator/environment/add_statement/datatypes.rs: add_inductive_statement, add_structure_statement, check_strict_positivity, contains_inductive_type", "src/elaborator/acorn_type.rs: Variance, compute_variance_with_lookup, genericize", "src/elaborator/acorn_value.rs: genericize", "src/elaborator/binding_map.rs: DatatypeDefinition::import, get_datatype_variances, set_datatype_variances"]}
{"id": "C49", "title": "A module whose goals are proved adds no contradiction", "statement": "When every goal of a module is true in all situations where the facts visible to it are true, every fact the module makes available to what follows and to other modules is a consequence of its axioms and definitions: theorems, claims, `forall`, `if` and `match` blocks with what they export, and citations. Statements that introduce constants without axioms - definitions that can be met (see C50 for recursive ones), `satisfy` statements, named theorems - add nothing false: every interpretation of what was there before can be extended to the new constants so that all new facts hold. A fact is visible to a goal exactly if it comes before it, at the same level or at the level of a block around it.", "quantifier": "all modules made of such statements with any nesting of blocks, any type parameters, and all interpretations of types and constants", "why_tests_cant": "Tests check that particular false theorems are not provable. A block that exports slightly more than was proved in it, a fact that is visible too early, or a name that can be defined twice makes everything provable, but only in modules that use it so.", "anchors": ["src/elaborator/block.rs: Block::new, externalize_bool, externalize_last_claim", "src/elaborator/environment/mod.rs: add_definition, define_constant, add_conditional, lower_nodes_pass", "src/elaborator/environment/add_statement/definitions.rs: add_theorem_statement, add_variable_satisfy_statement, add_function_satisfy_statement, add_claim_statement, add_let_statement, add_define_statement", "src/elaborator/environment/add_statement/blocks.rs: add_forall_statement, add_if_statement, add_match_statement", "src/elaborator/lowered_module.rs: visible_fact_ids_for_goal", "src/elaborator/node.rs: NodeCursor", "src/elaborator/binding_map.rs: evaluate_scoped_value, remove_constant, constant_name_in_use, find_unknown_scoped_constants"]}
{"id": "C50", "title": "A recursive definition that is accepted has exactly one meaning", "statement": "When a function definition is accepted, there is, whatever the types and the other constants mean, exactly one function of the declared type that has the values the definition gives it, where the calls of the function in its own definition are calls of that same function. So an accepted recursive definition neither makes everything provable nor leaves the function undetermined. The form in which the definition is stored, generic in its type parameters, means what was written.", "quantifier": "all definitions with any number of arguments, type parameters, nested matches and recursive calls, partial applications included; all datatypes; all interpretations of types and constants", "why_tests_cant": "Tests define particular recursive functions. A definition that is accepted although no function satisfies it makes every theorem provable, and whether one exists depends on all the calls in the body and all elements of the datatype.", "anchors": ["src/elaborator/termination_checker.rs: TerminationChecker::check", "src/elaborator/binding_map.rs: evaluate_scoped_value, add_constant_name, remove_constant", "src/elaborator/acorn_value.rs: set_params, genericize", "src/elaborator/evaluator.rs: resolve_instance_impl_constant", "src/elaborator/names.rs: DefinedName::recursion_name", "src/elaborator/environment/add_statement/definitions.rs: add_define_statement"]}
{"id": "C51", "title": "What is loaded is what the files say, whatever was typed before", "statement": "After any sequence of edits, closed files, added targets and loads, every module that the project holds as loaded has exactly the export that the current text of the files gives it, a module with an error is one to which the current files give no export, and no module is left half loaded. The text that counts for a module is the last one typed with a new version number, or the file on disk if it is not open. A load always ends; it reports a missing module exactly when there is no file, and a circular import only for modules whose imports do go round in a circle. The order in which modules are loaded does not matter.", "quantifier": "all sets of files with any imports, cyclic ones included; all histories of edits, closes, targets and loads, of any length; any elaborator that asks about imported modules only", "why_tests_cant": "A stale entry that survives one particular edit, or an error that depends on which module was asked for first, shows only for that history. Tests run a handful of histories on a handful of import graphs.", "anchors": ["src/project.rs: Project::load_module, register_all_modules, get_loaded_module_id_by_name, update_file, update_file_for_ide, close_file, reload_targets, add_target_by_descriptor, drop_modules, read_file", "src/loader/module_loader.rs: elaborate_and_lower_module", "src/loader/parsed_module.rs: DependencyCollector", "src/elaborator/environment/add_statement/imports.rs: add_import_statement"]}
{"id": "C52", "title": "Parallel loading gives what loading one by one gives, under every schedule", "statement": "When a set of modules that contains all the modules it needs is loaded in parallel, then for every number of workers, every preference among ready modules and every order in which the workers finish: each module is elaborated exactly once and on finished dependencies only, a module that is loaded has the export that loading it alone would give, the loader never panics and never waits for a result that will not come, no worker is idle while a module is ready, and the loader comes to an end with all modules loaded unless the imports of one of them go round in a circle.", "quantifier": "all sets of files and import graphs, all earlier histories of the project, all sets of targets closed under imports, all worker counts, all orders of completion", "why_tests_cant": "The order in which worker threads finish is not under the control of a test; a job that is handed out a moment too early, or never, shows only under particular schedules.", "anchors": ["src/project.rs: ParallelProjectLoader::new, enqueue_available, next_loaded_modules", "src/project.rs: prepare_parallel_module_load_job, pop_ready_parallel_load_job, enqueue_parallel_load_job", "src/project.rs: ProjectView::new_without_lowered, get_loaded_module_id_by_name"]}
{"id": "C53", "title": "An edit rebuilds what it can change, and nothing else", "statement": "After new text for a module, the targets chosen for rebuilding are the edited module and exactly the targets that need it through other targets, each once; a target that is not chosen, in a project whose targets include the modules through which they need the edited one, stands for exactly what it stood for before the edit. The modules handed to the parallel loader contain everything the chosen targets need, so under every schedule the reload ends with all of them loaded as the current text says, unless one has no file or has imports that go round in a circle.", "quantifier": "all sets of files and import graphs, all histories of edits, all sets of targets, all edited modules and texts, all worker counts and schedules", "why_tests_cant": "Whether a rebuild set is large enough depends on the whole import graph, on which modules happen to be targets and on what was opened and closed before; tests try a few small graphs.", "anchors": ["src/project.rs: reload_dependent_targets_by_path, dependent_target_closure, target_dependency_closure", "src/project.rs: dependency_descriptors_for_target, add_unloaded_target_by_descriptor, update_file_for_ide", "src/server.rs: the rebuild after a change"]}
{"id": "C54", "title": "The editor only shows the newest build", "statement": "While files are saved and closed and builds run in the background, in any order of all their steps: each build is of the project exactly as it was after the save that asked for it; progress and errors are shown for one build only, the newest that has been announced, never for an older one; for every open file the editor shows exactly the errors that this build has reported so far, in order, with the version that is built; once a build is shown as finished nothing changes until a newer save; a result is recorded in the build cache only if it was computed for the current project; and as long as nothing is saved or closed the newest build is never given up and can come to its end.", "quantifier": "all projects, all sequences of saves and closes, all interleavings of handlers, background tasks and builder events, of any length", "why_tests_cant": "Which task comes first at each lock is decided by the scheduler; a test of the server sees one interleaving per run and cannot hold a task at a chosen point.", "anchors": ["src/server.rs: AcornLanguageServer::build, did_save, did_close", "src/server.rs: BuildInfo::queued, reset, handle_event, finish, with_doc; DocumentBuildInfo::verify, add_diagnostic", "src/server/project_manager.rs: ProjectManager::read, mutate_with_epoch, mutate_if_epoch_with_epoch"]}
{"id": "C55", "title": "A module is good only when every goal was accepted, and then it passes a check", "statement": "A module is verified goal by goal in the order of the text, in every mode, and each goal sees exactly the facts of the modules it needs, each once, and those of its own module that are visible at it. A build of a module stays good only when each of its goals was accepted, once: by the checker with a stored certificate for a goal of this name that no other goal used, or by a search. It then stores the certificates in the order of the goals, trimmed to the steps that were used, and after them exactly the unused ones. Check mode never searches, and passes exactly when for every goal its certificate is stored and accepted. What a good build stores passes a check, with or without the unused certificates, and checking again changes nothing. With a goal filter exactly the wanted goals are verified and nothing is stored. If checker and search are sound, all facts of a good module follow from its axioms and definitions.", "quantifier": "all modules with any nesting of blocks and any imports, all certificate stores, all modes and goal filters, all checkers and searches", "why_tests_cant": "Tests run a few small modules with the certificates that the prover happens to write; duplicate names, stale and reordered certificates, imports in the middle of nested blocks and filters combine without bound.", "anchors": ["src/builder.rs: verify_goal, verify_lowered_claim, verify_lowered_items, verify_lowered_module, trim_unused_certificates", "src/processor.rs: Processor", "src/certificate.rs: CertificateWorklist"]}
{"id": "C56", "title": "Simplifying a file removes only claims that are not needed, and the file stays verified", "statement": "`acorn simplify` ends on every file. However it ends, the text is the original one without some whole lines, in their order: those of anonymous claims inside blocks that are not the last one of a block, each of which was not needed, since every goal that sees its fact is proved without it. After each removal what is left loads and is verified, so that the file on the disk is the original or verified at every point between two writes, and passes a check with the stored certificates at the end. A dry run writes nothing and reports the same removals. When it ends, every claim after the last removed one that could still be removed is needed by some goal; in particular all of them if nothing was removed.", "quantifier": "all texts, all outcomes of loading and proving, all certificate stores, all points of a run", "why_tests_cant": "Tests simplify a few small files; the order of the removals, nested blocks, the certificates that are rewritten in between and the point at which the command is stopped combine without bound.", "anchors": ["src/simplifier.rs: simplify_file, collect_candidates, collect_exported_claims, collect_affected_goals, can_remove_candidate, prove_without_fact, verify_edited_target, remove_line_range"]}
{"id": "C57", "title": "The clauses that wait for the prover are never lost, mixed up or falsified", "statement": "Whatever sequence of pushing, popping and simplifying the prover performs, the queues, the index and the table of waiting clauses describe the same clauses: no internal assertion fails. A pop returns a clause exactly if one waits, and then the best one by (contradiction, tier, score), the newest among equals; every so many pops the newest of the best tier; the shallow pop returns the best shallow one. No clause is popped twice; the others are unchanged. Scores are those the scorer gives with the goal known, if it uses the goal. A reported contradiction is between two waiting opposite literals. Simplifying with a true literal keeps the waiting clauses true and well typed, loses nothing when all types are known to be inhabited, and leaves no clause that the literal could still simplify.", "quantifier": "all histories of pushes, pops and simplifications, all scorers, all clauses, all orders of the index, all interpretations", "why_tests_cant": "Tests run a few searches; a queue that disagrees with the table, a stale score or a wrongly dropped literal only shows up for particular interleavings of thousands of operations.", "anchors": ["src/prover/passive_set.rs: PassiveSet, push_batch, rescore_all, pop_entry_with_shallow, pop_df_entry, pop_shallow_entry, simplify, simplify_one_direction, make_simplified, get_contradiction", "src/prover/score.rs: Score"]}
{"id": "C58", "title": "Everything the proof search derives follows from what it was given", "statement": "Whatever steps the prover is given, in whatever order it takes them up, every clause it derives (by resolution, equality resolution and factoring, injectivity, extensionality, boolean reduction, rewriting or simplification) follows from the active steps, and claims at least the dependence of its premises: a step that claims to be a fact follows from facts alone, one that claims not to depend on the negated goal follows without it. If the search reports a proof - an impossible clause, two waiting opposite literals, or a contradiction in the equality graph - then the steps it was given cannot all be true. Every resolution of the new step with an active one at literals with a common instance is derived. Simplification loses nothing: the old step follows from the new one, and a dropped step is already known (or has a variable of a type that is not known to be inhabited).", "quantifier": "all sequences of adding steps and continuing the search, all well-typed clauses, all scorers, hash orders and selections of patterns, all interpretations with no empty types", "why_tests_cant": "Tests run the prover on sample theorems that hold; an unsound rule or a wrong index entry yields a wrong clause only for particular combinations of clauses, and a wrong truthiness only weakens later filters silently.", "anchors": ["src/prover/active_set.rs: ActiveSet::activate, find_resolutions, try_resolution, activate_rewrite_target, activate_rewrite_pattern, equality_resolution, equality_factoring, extensionality, injectivity, boolean_reduction, simplify, evaluate_literal, insert", "src/prover/prover.rs: Prover::add_steps, activate_next, activate", "src/kernel/proof_step.rs: ProofStep, Truthiness"]}
{"id": "C59", "title": "The rewrite index returns exactly the applications of its rules", "statement": "After any insertions of equations into the rewrite index, looking up a term returns only terms that an inserted equation, read in one of its directions, turns the term into: some terms of the right types for the variables of the equation make one side the queried term and the other side the result. Variables that occur only in the new side become different fresh variables whose types are recorded. The result equals the term wherever the equations are true, every inserted equation that applies is returned, `true` is never rewritten, and no lookup panics.", "quantifier": "all sequences of insertions, all queried terms, contexts and numbers of the first fresh variable, all interpretations", "why_tests_cant": "the patterns, the order of insertions, the sharing of patterns between rules and the terms matched are unbounded; soundness speaks about all interpretations", "anchors": ["src/prover/rewrite_tree.rs: RewriteTree::insert_literal", "src/prover/rewrite_tree.rs: RewriteTree::get_rewrites", "src/kernel/pdt.rs: Pdt::find_term_matches_while"]}
{"id": "C60", "title": "Looking up a position finds the token that is there", "statement": "After any series of remarks about tokens of a source, in any order and with repetitions, asking what is at a position answers with the token that covers the position and with what was said about it last, and answers nothing exactly when no remark about a token there was made; across the nested environments of a file the outermost one that has a remark about the token answers. The range reported for a token is the range of its text in the units of the editor protocol, and hovering over the text of a token gives the information about that token and highlights it.", "quantifier": "all source texts, all subsets and orders of tracked tokens, all nestings of environments, all positions", "why_tests_cant": "The lookup inspects a single entry, the last one at or before the position, which is right only because tokens of a source never overlap and because of the order of the keys; a test covers a fixed table of tokens, usually ASCII.", "anchors": ["src/syntax/token_map.rs: TokenMap::insert, track_token, get, TokenKey::contains, range", "src/elaborator/environment/mod.rs: find_token, env_for_line_step, get_line_type", "src/project.rs: hover", "src/server.rs: hover", "src/syntax/token.rs: Token::start_pos, end_pos, range"]}
{"id": "C61", "title": "Naming the witness of an existential is a conservative step", "statement": "When the prover replaces a proved statement that something exists by a statement about a new named constant applied to the variables of the statement, the constant has a well-formed type, the application has the type of what exists, and the new statement says of it what was said to exist. Every interpretation in which the statement is true can be extended by a value for the constant such that the new statement is true, and conversely the new statement implies the old one. Therefore, however many inferences and namings a search makes, what it derives about the original constants follows from the given statements, and deriving a contradiction shows that they are contradictory.", "quantifier": "all clauses, with variables for values and types in any order, all interpretations, all sequences of inferences and openings", "why_tests_cant": "Conservativity is a claim about all interpretations and about all later conclusions; a wrong argument order or a witness that does not depend on a variable gives plausible clauses that prove false theorems only in special situations.", "anchors": ["src/prover/synthetic.rs: open_positive_exists, witness_symbol_type", "src/kernel/clause.rs: positive_exists_reduction, instantiate_positive_exists_reduction", "src/prover/active_set.rs: activate"]}
{"id": "C62", "title": "Whoever asks for the packaged library gets all of it", "statement": "When the server asks for the copy of the standard library that is packaged in its binary, and is given a directory, that directory holds every file of the packaged library with its contents. This is so whatever other servers do at the same time with the same cache, wherever any of them is killed, and whichever file system operations fail; the directory is at no moment half-filled, and once it is given out no server changes it. After any such history a server that is left alone gets the library, and leaves no temporary directory behind.", "quantifier": "every archive, every number of processes, every interleaving of their file system operations, every crash point, every failing operation, every left-over temporary directory", "why_tests_cant": "The test extracts twice in one process. The claim is about all interleavings and all points at which a process may be killed.", "anchors": ["src/packaged_acornlib.rs: get_or_extract, install_temp_cache, cache_is_valid, verify_layout, has_package_manifest, write_metadata"]}
{"id": "C63", "title": "The outcome of a proof search is right", "statement": "When a proof search ends, the outcome it reports is true of the search. Success: a contradiction was found, and it uses the negated goal unless an inconsistency is okay; the given facts, assumptions and negated goal cannot all be true. Inconsistent: a contradiction was found without the negated goal; the facts and assumptions alone cannot all be true. Exhausted: no step is left and no contradiction was found. ShallowExhausted: a shallow search left no shallow step. ShallowExplosion and ActivationCap: the limit on activations that do not only depend on facts was reached, with or without shallow steps left. Interrupted and Timeout: a token was cancelled or the time was up. A search stops in the first round in which one of these holds, never exceeds the limit, and in shallow mode activates only shallow steps.", "quantifier": "all sets of given steps, all modes and limits, all scorers, all times at which tokens are cancelled and the clock runs out, all lengths of the search", "why_tests_cant": "a test runs one search on one machine; whether the outcome is right depends on which of many conditions comes first in which round, and what a success or an inconsistency claims is a statement about all interpretations", "anchors": ["src/prover/prover.rs: Prover::search, search_with_context, check_shallow_frontier, activate_next", "src/prover/mod.rs: Outcome, ProverMode", "src/kernel/proof_step.rs: ProofStep::passive_contradiction, Truthiness"]}
{"id": "C64", "title": "The linter reports exactly the imports that do not count as used", "statement": "Linting a module reports an import, at the top or in any block, if and only if it does not count as used. It counts as used if its entity occurs in the module's exports, at a token other than the import itself, in a clause of a fact or goal, or in a cached certificate of a goal (its parsed steps or its text); or if something of its module occurs that is known only by its module; or if a cached certificate cannot be read at all, in which case nothing is reported. So nothing that is used is ever reported, at any depth of blocks and types. No import is reported more often than it is written. Linting fails exactly if a goal that the linter gets to has no cached certificate, and names the first such goal. The warnings for several modules are all of theirs, sorted by path, line, column, name and module.", "quantifier": "all modules, with any imports, nesting of blocks, tokens, facts, goals, types and certificates; all lists of targets", "why_tests_cant": "a test lints a few modules; a collector that misses one kind of type, clause or certificate step makes a user delete an import that is needed, and there are unboundedly many places where an entity can occur", "anchors": ["src/lint.rs: lint_targets, lint_module, collect_imports, collect_source_token_usage, collect_cached_certificate_usage, collect_certificate_step_usage, collect_acorn_type_usage, mark_all_imports_used, Usage::import_is_used"]}
{"id": "C65", "title": "The arguments of a claim in a certificate mean the same after they are renumbered", "statement": "When a claim of a proof is written to a certificate, each argument is moved to the place where it is written: an argument that uses the claim's variables loses the numbers of the type parameters, any other makes room for the names of the claim's variables. The argument means there what it meant before, in every interpretation and for all values of the variables, at any depth of binders and matches; it refers to no variable it did not refer to before; and undoing the move gives exactly the value back. An argument that is written without names of variables means the same whatever the variables are.", "quantifier": "all values of arguments, all numbers of type parameters and variables, all interpretations", "why_tests_cant": "a certificate whose argument was moved wrongly says something else than what was proved; whether that can happen depends on how binders, matches and variables are nested, without bound", "anchors": ["src/claim_codec.rs: ClaimCodec::rebase_value_to_standalone, shift_value_variables, value_has_variable", "src/elaborator/acorn_value.rs: AcornValue::type_apply, grouped"]}
{"id": "C66", "title": "What local obligations export has been proved", "statement": "A local binding in a branch or match gives rise to obligations: claims that may assume the premises of the branch, existence of witnesses, and blocks of further obligations, nested to any depth. Every fact that an obligation makes available outside is true in every interpretation in which the obligations themselves are proved: premises assumed inside are conditions outside, and the variables of the branch are quantified. An exported claim says exactly what was to be proved. Existence of a witness must be proved without the premises, so that a branch that is never taken cannot give an element of an empty type. A claim for internal use is not exported.", "quantifier": "all obligations, nested to any depth, all premises, all stacks of variables, all interpretations", "why_tests_cant": "a wrong export makes a false fact available to all later proofs; whether one arises depends on how branches, premises and blocks are nested, without bound, and truth in all interpretations cannot be tested", "anchors": ["src/elaborator/local.rs: LocalObligation, GuardedLocalClaim::external_value, LocalProofBlock::external_value, exported_value_for_context_len", "src/elaborator/environment/add_statement/local_obligations.rs: add_local_obligations, add_local_claim_obligation, add_local_witness_obligation, add_local_proof_block"]}
