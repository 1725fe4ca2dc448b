{"id": "C01", "title": "IPASIR integers and literals convert back and forth without loss", "statement": "For every literal whose variable fits the IPASIR range, converting to the signed IPASIR integer and back gives the same literal; for every non-zero 32-bit integer, from_ipasir succeeds exactly when the variable index is representable and to_ipasir returns the same integer; 0 is rejected with the dedicated error.", "quantifier": "all literals (variable index 0..2^31-1, both signs) and all i32 values", "why_tests_cant": "2^32 literals; boundaries are easy to miss (idx = MAX, i32::MIN).", "anchors": ["src/types/mod.rs: Lit::to_ipasir, Lit::to_ipasir_with_error, Lit::from_ipasir, Var::to_ipasir"]}
{"id": "C02", "title": "Literal negation is a sign flip", "statement": "Negating a literal keeps its variable, flips its polarity, is an involution, never has a fixed point, and under every assignment the negated literal is true exactly when the literal is false. A literal and its negation are neighbours in the literal order (nothing sorts between them).", "quantifier": "all literals, all assignments", "why_tests_cant": "Clause normalisation and every encoder rely on it for all 2^32 literals.", "anchors": ["src/types/operators.rs: Not/Neg for Lit", "src/types/mod.rs: Lit::var, is_pos, is_neg"]}
{"id": "C03", "title": "All variable/literal constructors accept the same documented index range", "statement": "Var::new, Var::new_with_error, Lit::new and Lit::new_with_error succeed exactly for indices up to MAX_IDX, and the constructed object reports the index and polarity it was built from.", "quantifier": "all u32 indices and both polarities", "why_tests_cant": "A boundary at a single index out of 2^32; tests use small indices.", "anchors": ["src/types/mod.rs: Var::new, Var::new_with_error, Lit::new, Lit::new_with_error, Var::MAX_IDX"]}
{"id": "C04", "title": "Assignments behave like a finite map from variables to three-valued values", "statement": "After any sequence of assign_var/assign_lit/replace_dont_care/truncate operations, var_value and lit_value of any variable equal the value in an abstract map on which the same operations were performed, unassigned variables read DontCare, and iterating the assignment yields exactly the true literals.", "quantifier": "all operation histories, all variables", "why_tests_cant": "Growth of the backing vector, gaps and truncation interact; histories are unbounded.", "anchors": ["src/types/mod.rs: Assignment::assign_var, assign_lit, var_value, lit_value, replace_dont_care, truncate, iter, FromIterator<Lit>"]}
{"id": "C05", "title": "Parsing a SAT-competition value line yields exactly the listed literals and rejects contradictions", "statement": "Extending an assignment with the literals of a SAT-competition `v` line makes each listed literal true, leaves all other variables unchanged, and fails with ConflictingAssignment exactly when a listed literal contradicts an earlier value.", "quantifier": "all prior assignments and all literal sequences", "why_tests_cant": "The space of lines and prior assignments is unbounded; conflict handling depends on history.", "anchors": ["src/types/mod.rs: Assignment::extend_sat_comp_vline, Assignment::extend_from_vline"]}
{"id": "C06", "title": "Clause normalisation preserves meaning and produces a canonical form", "statement": "Clause::normalize returns None exactly for tautologies; otherwise the result is satisfied by the same assignments, contains no duplicate literal, no complementary pair, and two clauses have equal normal forms exactly when they contain the same set of literals; normalisation is idempotent.", "quantifier": "all clauses (any length, any literal order), all assignments", "why_tests_cant": "Unbounded length and literal orders.", "anchors": ["src/types/constraints.rs: Clause::normalize"]}
{"id": "C07", "title": "Clause sanitisation removes redundancy without changing meaning or literal set", "statement": "Clause::sanitize returns None exactly for tautologies; otherwise the result has the same set of literals without duplicates and is satisfied by the same assignments.", "quantifier": "all clauses, all assignments", "why_tests_cant": "Unbounded length and literal orders.", "anchors": ["src/types/constraints.rs: Clause::sanitize"]}
{"id": "C08", "title": "Clause evaluation and removal agree with the set-of-literals reading", "statement": "Evaluating a clause is True iff some literal is true, False iff all literals are false, DontCare otherwise; is_tautology under a partial assignment/removing a literal (remove, remove_thorough) removes exactly one / all occurrences and keeps everything else.", "quantifier": "all clauses, all partial assignments", "why_tests_cant": "Unbounded clauses and three-valued assignments.", "anchors": ["src/types/constraints.rs: Cl::evaluate, Clause::remove, Clause::remove_thorough"]}
{"id": "C09", "title": "Cardinality constraint transformations preserve meaning", "statement": "Inverting a cardinality constraint between upper and lower bound form, splitting an equality, converting to a clause when is_clause holds, and changing the bound denote exactly the intended set of assignments.", "quantifier": "all cardinality constraints (any literals, repeats allowed, any bound), all assignments", "why_tests_cant": "Bounds near 0 and near the number of literals, repeated and complementary literals.", "anchors": ["src/types/constraints.rs: CardConstraint, CardUbConstr::invert, CardLbConstr::invert, CardEqConstr::split, into_clause, is_clause"]}
{"id": "C10", "title": "Cardinality constraint classification is sound", "statement": "is_tautology, is_unsat, is_positive_assignment, is_negative_assignment, is_clause are true only if the constraint is respectively satisfied by every assignment, by none, exactly by the all-true assignment, exactly by the all-false assignment, equivalent to the produced clause.", "quantifier": "all cardinality constraints, all assignments", "why_tests_cant": "Off-by-one in a single predicate silently changes the encoding of rare bounds.", "anchors": ["src/types/constraints.rs: CardConstraint::is_tautology, is_unsat, is_positive_assignment, is_negative_assignment, is_clause"]}
{"id": "C11", "title": "Pseudo-Boolean constraint construction from signed weights preserves meaning", "statement": "new_ub/new_lb/new_eq on signed weights yield a constraint with non-negative weights that is satisfied by exactly the assignments satisfying the signed linear inequality; the cached weight sum equals the sum of the weights, also after add, set_bound, invert and split.", "quantifier": "all weighted literal lists with arbitrary signed weights and bounds, all assignments", "why_tests_cant": "Sign normalisation must be right for all sign patterns and bounds.", "anchors": ["src/types/constraints.rs: PbConstraint::convert_input_lits, new_ub, new_lb, new_eq, add, PbUbConstr::invert, PbLbConstr::invert, PbEqConstr::split"]}
{"id": "C12", "title": "Pseudo-Boolean classification predicates are sound", "statement": "is_tautology, is_unsat, is_positive_assignment, is_negative_assignment, is_card, is_clause imply the corresponding semantic fact for constraints with positive weights.", "quantifier": "all pseudo-Boolean constraints, all assignments", "why_tests_cant": "Boundary conditions of weight sums vs bounds.", "anchors": ["src/types/constraints.rs: PbUbConstr/PbLbConstr/PbEqConstr is_tautology, is_unsat, is_positive_assignment, is_negative_assignment, is_clause, find_unit_weight"]}
{"id": "C13", "title": "Pseudo-Boolean constraints convert to simpler constraints without changing meaning", "statement": "PbConstraint::normalize, into_card_constr, extend_to_card_constr, into_clause and the conversions from clauses and cardinality constraints preserve the set of satisfying assignments; into_card_constr reports Tautology/Unsat only when that is the case and never panics.", "quantifier": "all pseudo-Boolean constraints, all assignments", "why_tests_cant": "Rounding of bounds by the unit weight and merging of repeated literals for all inputs.", "anchors": ["src/types/constraints.rs: PbConstraint::normalize, into_card_constr, extend_to_card_constr, into_clause, From<Clause>, From<CardConstraint>"]}
{"id": "C14", "title": "Constraint evaluation is correct for partial assignments", "statement": "evaluate on a cardinality or pseudo-Boolean constraint returns True only if every completion satisfies it, False only if no completion does, and never DontCare on a total assignment.", "quantifier": "all constraints, all partial assignments", "why_tests_cant": "Exponentially many completions; interval end points matter.", "anchors": ["src/types/constraints.rs: CardConstraint::evaluate, PbConstraint::evaluate"]}
{"id": "C15", "title": "CNF operations preserve the set of models", "statement": "Cnf::normalize and Cnf::sanitize preserve the models; joining and `&` denote conjunction; `|` denotes disjunction of clauses; evaluating a CNF is the conjunction of evaluating its clauses; the implication builder methods add clauses equivalent to the named implication.", "quantifier": "all CNFs, all assignments", "why_tests_cant": "Unbounded formulas; sorting/dedup across clauses.", "anchors": ["src/instances/sat.rs: Cnf::normalize, Cnf::sanitize, Cnf::evaluate, Cnf::add_*_impl_*", "src/types/operators.rs: BitAnd, BitOr"]}
{"id": "C16", "title": "Instance simplification (sanitize) preserves the set of models and never fails", "statement": "SatInstance::sanitize yields an instance satisfied by the same assignments, for every instance.", "quantifier": "all instances (clauses, cardinality and PB constraints), all assignments", "why_tests_cant": "Combination of all constraint classes and boundary bounds.", "anchors": ["src/instances/sat.rs: SatInstance::sanitize"]}
{"id": "C17", "title": "Combining two instances is conjunction", "statement": "extend / `&` / `&=` of two instances gives an instance satisfied by exactly the assignments satisfying both, and its variable manager knows every variable of both.", "quantifier": "all pairs of instances, all assignments", "why_tests_cant": "All combinations of constraint types.", "anchors": ["src/instances/sat.rs: SatInstance::extend", "src/types/operators.rs: BitAnd<SatInstance>"]}
{"id": "C18", "title": "Converting an instance to a list of PB constraints preserves its models", "statement": "The conjunction of into_pbs() is satisfied by exactly the assignments satisfying the instance.", "quantifier": "all instances, all assignments", "why_tests_cant": "Unbounded constraint sets.", "anchors": ["src/instances/sat.rs: SatInstance::into_pbs"]}
{"id": "C19", "title": "Variable managers only hand out fresh variables", "statement": "After any history of marking variables used, increasing the free index, and requesting new variables, new_var returns a variable that has never been marked used or returned before; n_used and max_var agree with the history.", "quantifier": "all operation histories on BasicVarManager, ReindexingVarManager and ObjectVarManager", "why_tests_cant": "Histories are unbounded and operations interleave.", "anchors": ["src/instances/mod.rs: ManageVars, BasicVarManager, ReindexingVarManager, ObjectVarManager"]}
{"id": "C20", "title": "Re-indexing is an injective renaming and reverse undoes it", "statement": "For every sequence of reindex calls on a new re-indexing manager, the mapping is injective and stable, reverse(reindex(v)) = v, and re-indexing an instance/objective preserves satisfaction and cost under the renamed assignment.", "quantifier": "all call histories, all instances, all assignments", "why_tests_cant": "Global injectivity over unbounded histories.", "anchors": ["src/instances/mod.rs: ReindexingVarManager", "src/instances/sat.rs: SatInstance::reindex", "src/instances/opt.rs: Objective::reindex"]}
{"id": "C21", "title": "Objective modification methods change the cost as documented", "statement": "increase_soft_lit/increase_soft_clause/increase_soft_lit_int/add_soft_clause/increase_offset change the value of every assignment by exactly the documented amount irrespective of the internal (weighted/unweighted) representation; switching representation never changes the value.", "quantifier": "all objectives reachable by any history of calls, all assignments", "why_tests_cant": "The internal representation switches depending on history.", "anchors": ["src/instances/opt.rs: Objective::add_soft_lit, increase_soft_lit, increase_soft_lit_int, add_soft_clause, increase_soft_clause, unweighted_2_weighted, weighted_2_unweighted"]}
{"id": "C22", "title": "Objective conversions preserve the cost function", "statement": "into_soft_cls and into_unweighted_soft_cls give the same cost for each assignment; convert_to_soft_lits / into_soft_lits add hardened clauses and fresh relaxation literals such that for each assignment the minimum cost over extensions equals the original cost and no extension is cheaper.", "quantifier": "all objectives, all assignments and all extensions", "why_tests_cant": "Exponentially many extensions; all objective shapes.", "anchors": ["src/instances/opt.rs: Objective::into_soft_cls, into_unweighted_soft_cls, convert_to_soft_lits, into_soft_lits, into_unweighted_soft_lits"]}
{"id": "C23", "title": "Objective normalisation preserves the cost function", "statement": "Objective::normalize returns an objective with the same value on every assignment and never panics.", "quantifier": "all objectives, all assignments", "why_tests_cant": "Combination of duplicates, complementary literals, offsets, representations.", "anchors": ["src/instances/opt.rs: Objective::normalize"]}
{"id": "C24", "title": "Atomic encodings are logically equivalent to the implication they name", "statement": "Each function of encodings::atomics returns clauses satisfied exactly by the assignments satisfying the implication between literals, clauses and cubes.", "quantifier": "all literals, clauses, cubes, assignments", "why_tests_cant": "Unbounded sizes, empty clauses/cubes.", "anchors": ["src/encodings/atomics.rs: lit_impl_lit, lit_impl_clause, cube_impl_lit, cube_impl_clause, lit_impl_cube, clause_impl_lit, clause_impl_clause, clause_impl_cube, cube_impl_cube"]}
{"id": "C25", "title": "Reified cardinality and PB constraints mean implication", "statement": "lit_impl_card, card_impl_lit, lit_impl_pb, pb_impl_lit return a constraint satisfied exactly by the assignments satisfying the implication between the literal and the constraint.", "quantifier": "all literals, all upper/lower bound constraints, all assignments", "why_tests_cant": "Bound arithmetic for extreme bounds.", "anchors": ["src/encodings/atomics.rs: lit_impl_card, card_impl_lit, lit_impl_pb, pb_impl_lit"]}
{"id": "C26", "title": "At-most-one encodings are correct", "statement": "For each of the pairwise, bitwise, ladder, bimander, commander and two-product encodings: in every model of the produced clauses at most one of the input literals (counted with multiplicity) is true, and every assignment of the inputs with at most one true literal extends to a model by assigning the newly created variables only.", "quantifier": "all lists of input literals below the next free variable, all group sizes and sub-encodings, all assignments", "why_tests_cant": "Exponentially many assignments, arbitrary n, nested encodings.", "anchors": ["src/encodings/am1/pairwise.rs", "src/encodings/am1/bitwise.rs", "src/encodings/am1/ladder.rs", "src/encodings/am1/bimander.rs", "src/encodings/am1/commander.rs", "src/encodings/am1/twoproduct.rs"]}
{"id": "C27", "title": "Encodings use only fresh auxiliary variables and report exact statistics", "statement": "Encoders obtain new variables only from the variable manager, every variable in a produced clause is an input variable or one obtained during the encoding, and n_vars/n_clauses report exactly the number of variables and clauses created.", "quantifier": "all inputs and histories", "why_tests_cant": "Clashes only show for particular sizes/histories.", "anchors": ["src/encodings/am1/*.rs: encode, n_clauses, n_vars", "src/encodings/card/totalizer/mod.rs: EncodeStats", "src/encodings/pb/gte/mod.rs: EncodeStats"]}
{"id": "C28", "title": "Totalizer upper bounds are sound and complete for every incremental history", "statement": "After any history of adding literals and encoding upper/lower bounds, if enforce_ub(b) returns assumptions, then every model of all clauses produced so far and these assumptions has at most b true input literals, and every input assignment with at most b true literals extends to such a model.", "quantifier": "all histories of extend/encode_ub/encode_ub_change/encode_lb_change, all bounds, all assignments", "why_tests_cant": "Incremental histories and exponential assignments.", "anchors": ["src/encodings/card/totalizer/mod.rs: Totalizer", "src/encodings/totdb/mod.rs: define_unweighted"]}
{"id": "C29", "title": "Totalizer lower bounds are sound and complete for every incremental history", "statement": "Same as the upper bound property for enforce_lb(b): at least b true input literals; Unsat is returned only if b exceeds the number of literals.", "quantifier": "all histories, all bounds, all assignments", "why_tests_cant": "Incremental histories and exponential assignments.", "anchors": ["src/encodings/card/totalizer/mod.rs: BoundLower", "src/encodings/totdb/mod.rs: define_unweighted"]}
{"id": "C30", "title": "Bounds that were not encoded are refused", "statement": "enforce_ub/enforce_lb return NotEncoded instead of unsound assumptions whenever literals were added or the bound was not covered by an encode call since; after encode_ub over a range containing b, enforce_ub(b) succeeds.", "quantifier": "all histories and bounds", "why_tests_cant": "Requires quantifying over histories.", "anchors": ["src/encodings/card/totalizer/mod.rs: enforce_ub, enforce_lb", "src/encodings/pb/gte/mod.rs: enforce_ub", "src/encodings/pb/dpw/mod.rs: enforce_ub", "src/encodings/pb/adder.rs: enforce_ub, enforce_lb"]}
{"id": "C31", "title": "Node connections translate values consistently", "statement": "For every node connection, map/rev_map/rev_map_round_up form the expected Galois connection: a value v of the child satisfies v >= rev_map_round_up(k) iff map(v) >= k for every possible k, and con_len is the number of possible output values of a unit connection.", "quantifier": "all offsets, divisors, multipliers, limits, values", "why_tests_cant": "Arithmetic with rounding for all parameters.", "anchors": ["src/encodings/nodedb.rs: NodeCon::map, rev_map, rev_map_round_up, is_possible, con_len"]}
{"id": "C32", "title": "Totalizer tree construction keeps exactly the input literals", "statement": "lit_tree, weighted_lit_tree, merge, merge_balanced and merge_thorough build trees whose leaves are exactly the given literals/connections with multiplicity, and whose value (sum over leaves of mapped weights) is the weighted sum of inputs, without disturbing existing nodes.", "quantifier": "all literal/connection lists and existing databases", "why_tests_cant": "All shapes and sizes of trees.", "anchors": ["src/encodings/nodedb.rs: lit_tree, weighted_lit_tree, merge, merge_balanced, merge_thorough", "src/encodings/totdb/mod.rs: Node::internal, Db::insert"]}
{"id": "C33", "title": "Generalized totalizer upper bounds are sound and complete", "statement": "After any history of adding weighted literals and encoding upper bounds, assumptions returned by enforce_ub(b) together with the clauses imply that the weighted sum is at most b, and every input assignment with weighted sum at most b extends to a model.", "quantifier": "all positive weights, histories, bounds, assignments; encoders created from distinct literals (see C52 for repeated ones)", "why_tests_cant": "Subset-sum structure makes exhaustive testing infeasible.", "anchors": ["src/encodings/pb/gte/mod.rs: GeneralizedTotalizer", "src/encodings/totdb/mod.rs: define_weighted"]}
{"id": "C34", "title": "Binary adder bounds are sound and complete", "statement": "The clauses of the binary adder encoding plus the enforced assumptions imply weighted sum <= b (resp. >= b), and each input assignment satisfying the bound extends to a model, for every history of encode calls.", "quantifier": "all weights, bounds, histories, assignments", "why_tests_cant": "Carry chains of arbitrary length and partial (one-directional) encoding of nodes depending on history.", "anchors": ["src/encodings/pb/adder.rs: BinaryAdder"]}
{"id": "C35", "title": "Dynamic polynomial watchdog bounds are sound and complete", "statement": "The clauses of the dynamic polynomial watchdog plus the assumptions returned by enforce_ub(b) imply weighted sum <= b and are satisfiable for every input assignment with weighted sum <= b. As long as the precision is not maximal, next_precision is accepted by set_precision and finer; at maximal precision no weight is rounded.", "quantifier": "all weights, bounds, assignments", "why_tests_cant": "Rounding and tare arithmetic for all weights.", "anchors": ["src/encodings/pb/dpw/mod.rs: DynamicPolyWatchdog, build_structure, enforce_ub, encode_output"]}
{"id": "C36", "title": "Bound-inverting and combining simulators preserve correctness", "statement": "Inverted turns a correct upper (lower) bound encoding into a correct lower (upper) bound encoding of the same literals; Double combines a correct upper and a correct lower bound encoding; Card turns a correct cardinality encoding into a correct pseudo-Boolean encoding.", "quantifier": "all underlying encodings satisfying their specification, all bounds and ranges", "why_tests_cant": "Generic over all encodings.", "anchors": ["src/encodings/card/simulators.rs: Inverted, Double", "src/encodings/pb/simulators.rs: Inverted, Double, Card"]}
{"id": "C37", "title": "Encoding a single cardinality or PB constraint is equisatisfiable on the inputs", "statement": "encode_cardinality_constraint and encode_pb_constraint produce clauses whose models restricted to the original variables are exactly the assignments satisfying the constraint.", "quantifier": "all constraints (any literals, weights, bounds), all assignments", "why_tests_cant": "Dispatch over special cases with boundary conditions.", "anchors": ["src/encodings/card/mod.rs: encode_cardinality_constraint, encode_ub_constr, encode_lb_constr, encode_eq_constr", "src/encodings/pb/mod.rs: encode_pb_constraint, encode_ub_constr, encode_lb_constr, encode_eq_constr"]}
{"id": "C38", "title": "Converting an instance to CNF preserves its models over the original variables", "statement": "into_cnf returns a CNF such that an assignment of the original variables satisfies the instance iff it extends to a model of the CNF.", "quantifier": "all instances, all assignments", "why_tests_cant": "All constraint combinations share one variable manager.", "anchors": ["src/instances/sat.rs: SatInstance::into_cnf, convert_to_cnf"]}
{"id": "C39", "title": "Solution-improving search returns an optimal solution", "statement": "Given a correct SAT oracle and a correct incremental upper-bound encoding, the search terminates and returns a model of minimum objective value, or reports unsatisfiability exactly if the formula is unsatisfiable.", "quantifier": "all formulas, objectives, oracle behaviours (any model may be returned)", "why_tests_cant": "Any model may be returned at each step: unbounded schedules.", "anchors": ["src/algs/maxsat.rs: SolutionImprovingSearch"]}
{"id": "C40", "title": "MaxSAT convenience solving returns the optimum of the instance", "statement": "OptInstance::solve_maxsat returns a solution whose cost is the minimum of the instance's cost over its solutions.", "quantifier": "all optimisation instances", "why_tests_cant": "All objective shapes (soft literals, soft clauses).", "anchors": ["src/instances/opt.rs: OptInstance::solve_maxsat"]}
{"id": "C41", "title": "DIMACS CNF files round-trip", "statement": "Parsing the text written for a CNF yields the same clauses in the same order (and header values).", "quantifier": "all CNFs", "why_tests_cant": "Unbounded text; number formatting and separators.", "anchors": ["src/instances/fio/dimacs.rs: write_cnf_annotated, write_cnf, clause, lit, cnf_p_line"]}
{"id": "C42", "title": "DIMACS WCNF files round-trip", "statement": "Parsing the text written for hard clauses and weighted soft clauses yields the same hard and soft clauses with the same weights; pre-2022 files classify a clause as hard iff its weight is at least top.", "quantifier": "all WCNF instances", "why_tests_cant": "Unbounded text.", "anchors": ["src/instances/fio/dimacs.rs: write_wcnf_annotated, write_wcnf, soft_clause, hard_clause"]}
{"id": "C43", "title": "DIMACS MCNF files round-trip", "statement": "Parsing the text written for hard clauses and per-objective weighted soft clauses yields the same data with the same objective indices.", "quantifier": "all MCNF instances", "why_tests_cant": "Unbounded text.", "anchors": ["src/instances/fio/dimacs.rs: write_mcnf_annotated, write_mcnf, mo_soft_clause"]}
{"id": "C44", "title": "OPB files round-trip semantically", "statement": "Parsing the text written for clauses, cardinality constraints, PB constraints and objectives yields constraints with the same satisfying assignments (and an objective equal up to the documented constant offset), with or without negated literals.", "quantifier": "all constraints, objectives, options", "why_tests_cant": "Unbounded text; sign transformations.", "anchors": ["src/instances/fio/opb.rs: write_clause, write_card, write_pb, write_objective, constraint, objective"]}
{"id": "C45", "title": "OPB relational operators mean what they say", "statement": "A constraint line `sum op b` with op one of <=, >=, <, >, = parses to a PB constraint satisfied exactly by the assignments satisfying that relation; min/max objectives parse to an objective whose minimisation is equivalent.", "quantifier": "all sums, operators, bounds, assignments", "why_tests_cant": "All operator/bound combinations and signs.", "anchors": ["src/instances/fio/opb.rs: constraint, operator, objective", "src/instances/opt.rs: OptInstance::from_opb"]}
{"id": "C46", "title": "Solver output parsing never reports a wrong verdict", "statement": "parse_sat_solver_output returns Unsat/Unknown/Sat only if the corresponding s-line is present as first decisive status line, and Sat only together with an assignment collected from all v-lines; otherwise it returns an error.", "quantifier": "all line sequences", "why_tests_cant": "All interleavings of line kinds.", "anchors": ["src/instances/fio/mod.rs: parse_sat_solver_output"]}
{"id": "C47", "title": "Optimisation cost is defined exactly for solutions", "statement": "OptInstance::cost / MultiOptInstance::cost return Some exactly if the assignment satisfies all constraints, and the value is offset plus weights of falsified soft clauses / true soft literals for each objective.", "quantifier": "all instances and assignments", "why_tests_cant": "All instances.", "anchors": ["src/instances/opt.rs: OptInstance::cost, Objective::evaluate", "src/instances/multiopt.rs: MultiOptInstance::cost"]}
{"id": "C48", "title": "Relaxation variables introduced by conversions never clash", "statement": "Converting (multi-)objective instances to hard clauses and soft literals only introduces variables that occur neither in the constraints nor in any objective.", "quantifier": "all instances and histories of objective modification", "why_tests_cant": "Depends on variables only used in objectives.", "anchors": ["src/instances/opt.rs: OptInstance::into_hard_cls_soft_lits", "src/instances/multiopt.rs: MultiOptInstance::into_hard_cls_soft_lits"]}
{"id": "C49", "title": "Evaluating an instance on a total assignment decides satisfaction", "statement": "For an assignment of all variables of an instance, Instance::evaluate returns True exactly if all constraints are satisfied and False exactly if not; unsat_constraint returns None exactly if all are satisfied, and otherwise a constraint of the instance that is violated.", "quantifier": "all instances and all assignments that assign every variable of the instance", "why_tests_cant": "All mixes of constraint types, sizes, weights and bounds.", "anchors": ["src/instances/sat.rs: Instance::evaluate, Instance::unsat_constraint", "src/types/constraints.rs: evaluate"]}
{"id": "C50", "title": "The number of digits is exact", "statement": "digits(number, basis) returns, for a basis of at least two, the smallest positive d with number < basis^d, through both the shifting and the dividing code path; for basis one it returns max(number, 1).", "quantifier": "all numbers, all positive bases", "why_tests_cant": "Unbounded numbers; the encodings rely on it for the number of auxiliary bits.", "anchors": ["src/utils.rs: digits", "src/encodings/am1/bitwise.rs", "src/encodings/am1/bimander.rs", "src/encodings/pb/dpw/mod.rs"]}
{"id": "C51", "title": "next_higher and next_lower never skip an attainable value", "statement": "If all added literals are part of the encoding, no assignment has a weighted sum strictly between b and next_higher(b), or strictly between next_lower(b) and b; next_higher(b) > b and next_lower(b) <= b. A search that moves its bound by these functions misses no objective value.", "quantifier": "all histories of the encoder, all bounds, all assignments", "why_tests_cant": "Skipping a value loses solutions only for particular combinations of weights; ranges over all histories and assignments.", "anchors": ["src/encodings/pb/gte/mod.rs: next_higher, next_lower", "src/encodings/pb/mod.rs: Encode"]}
{"id": "C52", "title": "Every occurrence of a literal counts", "statement": "Creating a pseudo-boolean encoder from an iterator of weighted literals, or adding further weighted literals, in which a literal occurs several times is the same as giving it the sum of these weights.", "quantifier": "all lists of weighted literals, for creation and for adding", "why_tests_cant": "Tests use distinct literals; the property ranges over all inputs including repeated literals.", "anchors": ["src/encodings/pb/gte/mod.rs: From, FromIterator, Extend", "src/encodings/pb/dpw/mod.rs", "src/encodings/pb/adder.rs"]}
{"id": "C53", "title": "Limiting the output range excludes no value in the range", "statement": "The clauses returned by limit_range(range) of the dynamic polynomial watchdog exclude no input assignment whose weighted sum lies in the range, even together with the clauses of the encoding and the assumptions of an upper bound in the range.", "quantifier": "all weights, precisions, ranges, bounds, assignments and histories of encode calls", "why_tests_cant": "Tests check the produced unit clauses for two fixed ranges; the property is about all weights, ranges and assignments.", "anchors": ["src/encodings/pb/dpw/mod.rs: DynamicPolyWatchdog::limit_range", "capi/src/encodings/dpw.rs: dpw_limit_range"]}
{"id": "C54", "title": "Coarse upper bounds are safe and easy", "statement": "coarse_ub(b) is at most b, applying it again changes nothing, and if it differs from b then enforcing it needs at most one assumption.", "quantifier": "all weights, bounds and histories of encode calls", "why_tests_cant": "Rounding to the output weight must be right for all bounds and numbers of tares.", "anchors": ["src/encodings/pb/mod.rs: BoundUpper::coarse_ub", "src/encodings/pb/dpw/mod.rs: coarse_ub"]}
{"id": "C55", "title": "Monotone encodings keep permanently enforced bounds compatible", "statement": "For encodings marked Monotone (generalized totalizer, binary adder, totalizer), adding the literals returned by enforce_ub(b) as hard unit clauses never excludes an input assignment with a sum of at most b, no matter which further literals are added and which other bounds are encoded and permanently enforced before or after: every assignment of the inputs respecting all enforced bounds extends to a model. The dynamic polynomial watchdog does not have this property.", "quantifier": "all input literals and weights, all histories of extend, encode_ub, encode_ub_change and permanently enforced bounds, all assignments", "why_tests_cant": "The trait is a marker without methods, so nothing checks it; it quantifies over whole histories of encodings and all assignments.", "anchors": ["src/encodings/mod.rs: Monotone", "src/encodings/pb/gte/mod.rs: impl Monotone", "src/encodings/pb/adder.rs: impl Monotone", "src/encodings/card/totalizer/mod.rs: impl Monotone", "src/algs/maxsat.rs: SolutionImprovingSearch"]}
{"id": "C56", "title": "The incremental simulator behaves like an incremental solver", "statement": "simulators::Incremental wraps a solver that can be used once only. After any history of adding clauses and solving with and without assumptions, solve answers Sat only if the clauses added so far are satisfiable and Unsat only if they are not, solve_assumps does the same for the clauses with the assumptions of that call only, values of literals after Sat come from a model of them, and the core after Unsat is a set of negated assumptions that is implied by the clauses. Operations fail only if the wrapped solver does, and a failure does not change later answers.", "quantifier": "all wrapped solvers that work when used once, all histories of add_clause, solve and solve_assumps, all clauses and assumptions", "why_tests_cant": "The wrapped solver is re-created and refilled depending on the history; tests use a few histories with one solver that never fails.", "anchors": ["src/solvers/simulators.rs: Incremental", "src/solvers/mod.rs: Solve, SolveIncremental, SolveStats"]}
{"id": "C57", "title": "External solvers get the right file and their answers are reported", "statement": "ExternalSolver passes a DIMACS file with exactly the added clauses and the smallest number of variables for them to the program, and with a correct program solve answers Sat only for satisfiable clauses, with literal values of a model, and Unsat only for unsatisfiable ones. The program is called at most once; afterwards adding clauses and solving fail and leave the answer as it is, and values are available only after Sat.", "quantifier": "all clauses and histories, all programs (correct, failing, writing arbitrary text)", "why_tests_cant": "It ranges over all programs and their outputs, and over all clause sets.", "anchors": ["src/solvers/external.rs: ExternalSolver, call_external", "src/instances/fio/dimacs.rs: write_cnf_annotated", "src/instances/fio.rs: parse_sat_solver_output"]}
{"id": "C58", "title": "The enumerator lists all solutions once", "statement": "The enumerator tool prints the solutions of an instance over the variables of the constraints and objectives: each printed solution (completed in any way where it is undecided) satisfies the constraints, every solution is covered by exactly one printed solution, the values printed with it are the objective values, the enumeration ends, and with --enumerate-until k the first k solutions are printed.", "quantifier": "all instances, all correct incremental solvers, all limits", "why_tests_cant": "Completeness and termination range over all instances and all models a solver may return.", "anchors": ["tools/src/bin/enumerator.rs: Enumerator, main", "src/solvers/mod.rs: Solve::solution"]}
{"id": "C60", "title": "The solution checker reports what the solution does", "statement": "check-solution reads the value lines of a solution, and if the solution satisfies all constraints it prints the value of each objective, otherwise it reports a constraint that is not satisfied. If values are printed for a solution that leaves variables open, they are the values of a solution.", "quantifier": "all instances, all solution files with value lines among other lines", "why_tests_cant": "It ranges over all instances and all ways to write and split a solution.", "anchors": ["tools/src/bin/check-solution.rs: main", "src/types.rs: Assignment::extend_from_vline", "src/instances/sat.rs: SatInstance::unsat_constraint"]}
{"id": "C59", "title": "Format conversions keep the problem", "statement": "cnf2opb, wcnf2opb, mcnf2opb, opb2cnf, opb2wcnf and opb2mcnf write a file that, read back, has the same solutions up to further variables and the same objective values up to a constant; in particular an optimal solution of the result is one of the input.", "quantifier": "all input texts that can be read, all numberings of variables, with and without negated literals", "why_tests_cant": "It ranges over all files; the conversions chain parsing, relaxing soft clauses, encoding constraints and writing.", "anchors": ["tools/src/bin/cnf2opb.rs", "tools/src/bin/wcnf2opb.rs", "tools/src/bin/mcnf2opb.rs", "tools/src/bin/opb2cnf.rs", "tools/src/bin/opb2wcnf.rs", "tools/src/bin/opb2mcnf.rs"]}
{"id": "C61", "title": "Operation sequences mean what was built", "statement": "A sequence of cutting planes operations built with the proof library (adding, multiplying, dividing, saturating, weakening constraints and literal axioms, including empty sequences and factors zero and one) is written as a line that a proof checker accepts and that yields exactly the constraint resulting from these operations.", "quantifier": "all ways of combining operations, all proofs written before", "why_tests_cant": "The operators have special cases for empty and singleton sequences and for factors zero and one, which combine without bound.", "anchors": ["pigeons/src/ops.rs: OperationSequence", "pigeons/src/lib.rs: Proof::operations"]}
{"id": "C62", "title": "Ids refer to what was derived", "statement": "The id returned when writing to a proof is the id under which the checker stores this constraint, and earlier ids keep their meaning. If the checker accepts the proof, every model of the formula becomes a model of all derived constraints by changing substituted variables only; a derived contradiction means that the formula is unsatisfiable.", "quantifier": "all formulas, all sequences of calls", "why_tests_cant": "It ranges over all proofs and all assignments.", "anchors": ["pigeons/src/lib.rs: Proof", "src/types/constraints.rs: ConstraintLike"]}
{"id": "C63", "title": "Certified totalizer encodings are certified", "statement": "The certified functions of the incremental totalizer encoding produce the same clauses and variables as the functions without proof logging. After any history of calls, mixed with proof lines written by the user, a proof checker accepts the proof, and every collected clause comes with the id of a constraint equivalent to the clause. No call panics.", "quantifier": "all histories of adding literals, encoding, reserving variables and writing other lines to the proof, all input formulas", "why_tests_cant": "Definitions in the proof are shared between calls and nodes of the tree; whether a later line may refer to them depends on the whole history.", "anchors": ["src/encodings/card/totalizer/mod.rs: BoundUpperIncremental for Totalizer, cert", "src/encodings/totdb/cert.rs", "src/encodings/card/cert.rs"]}
{"id": "C64", "title": "Cardinality constraints are encoded with a proof", "statement": "Encoding any cardinality constraint together with its id in a proof, with any encoding that supports proof logging, never panics. A proof checker accepts the lines that are written, every new clause comes with the id of an equivalent constraint, the new clauses encode the constraint, and only variables from the variable manager are new. With the default encoding the clauses and variables are those that result without proof logging.", "quantifier": "all cardinality constraints, all formulas and proofs written before that contain the constraint under the given id, all combinations of the simulators", "why_tests_cant": "Special cases for trivial, impossible, unit and clausal constraints derive clauses by unit propagation from the given id; the ids of the two halves of an equality differ; it ranges over all assignments and proofs.", "anchors": ["src/encodings/card/cert.rs: encode_cardinality_constraint, default_encode_cardinality_constraint", "src/encodings/card/simulators.rs: Inverted, Double"]}
{"id": "C65", "title": "Certified cardinality encodings handle all bounds", "statement": "Calling a certified encoding directly for a cardinality constraint never panics: it reports that the constraint cannot be satisfied, or adds certified clauses that encode it, whatever the bound and the number of literals.", "quantifier": "all cardinality constraints, all certified encodings", "why_tests_cant": "It ranges over all bounds and numbers of literals, including the ones for which no structure is built.", "anchors": ["src/encodings/card/cert.rs: BoundUpper::encode_ub_constr_cert, BoundLower::encode_lb_constr_cert, BoundBoth::encode_eq_constr_cert", "src/encodings/card/totalizer/mod.rs", "src/encodings/card/simulators.rs"]}
{"id": "C66", "title": "Certified generalized totalizer encodings are certified", "statement": "The certified functions of the incremental generalized totalizer encoding produce the same clauses and variables as the functions without proof logging. After any history of calls, mixed with proof lines written by the user, a proof checker accepts the proof, and every collected clause comes with the id of a constraint equivalent to the clause. No call panics.", "quantifier": "all histories of adding weighted literals, encoding, reserving variables and writing other lines to the proof, all input formulas, all orders of iteration of the hash map of buffered literals", "why_tests_cant": "Values of nodes are sums of weights below, so that definitions in the proof exist for a sparse, weight-dependent set of values and are shared between calls; whether a later line may refer to them depends on the whole history.", "anchors": ["src/encodings/pb/gte/mod.rs: BoundUpper, BoundUpperIncremental for GeneralizedTotalizer, cert", "src/encodings/totdb/cert.rs: define_weighted_cert", "src/encodings/pb/cert.rs"]}
{"id": "C67", "title": "Pseudo-Boolean constraints are encoded with proof logging", "statement": "Encoding a pseudo-Boolean constraint whose id in the proof is given, with any of the certified encodings, adds clauses that encode the constraint over its variables and new variables. A proof checker accepts the lines written, constraints already in the proof are kept, and every added clause comes with the id of a constraint equivalent to the clause. The call never panics.", "quantifier": "all pseudo-Boolean constraints, all certified upper and lower bounding encodings, all input formulas and proofs so far, all orders of iteration of hash maps", "why_tests_cant": "It ranges over all weights and bounds; which structure is built, which output derives the bound and which multiplier is needed depend on all of them.", "anchors": ["src/encodings/pb/cert.rs: default_encode_pb_constraint, encode_pb_constraint, encode_pb_ub_constraint, encode_pb_lb_constraint, encode_pb_eq_constraint", "src/encodings/pb/cert.rs: BoundUpper::encode_ub_constr_cert, BoundLower::encode_lb_constr_cert, BoundBoth::encode_eq_constr_cert", "src/encodings/pb/gte/mod.rs: encode_ub_constr_cert", "src/encodings/pb/simulators.rs: Inverted, Card"]}
{"id": "C68", "title": "Certified lower bounds by the inverted generalized totalizer", "statement": "The inverted generalized totalizer with proof logging offers lower bounds on the weighted sum: after encoding a range, every bound in the range can be enforced, the assumptions enforce exactly the bound, and bounds above the sum of the weights are reported as unsatisfiable. After any history of calls and user lines a proof checker accepts the proof and every collected clause comes with the id of an equivalent constraint. No call panics.", "quantifier": "all histories of adding weighted literals, encoding ranges of lower bounds, using variables and writing other lines to the proof", "why_tests_cant": "Ranges are translated between lower and upper bounds; whether a bound is available depends on the ranges of all earlier calls.", "anchors": ["src/encodings/pb/simulators.rs: Inverted, encode_lb_cert, encode_lb_change_cert, enforce_lb", "src/encodings/pb/mod.rs: prepare_ub_range, prepare_lb_range", "src/encodings/pb/gte/mod.rs"]}
{"id": "C69", "title": "IPASIR wrapper answers for exactly the clauses added so far", "statement": "Around every solver library that implements IPASIR correctly, the wrapper is a correct incremental solver: after any history of adding clauses and solving with and without assumptions, Sat comes with values that form a model of all clauses added so far and of the assumptions of this call only, Unsat means that there is none, and a core consists of negated assumptions of the call and follows from the clauses. Values can be read exactly after Sat and cores exactly after Unsat, and both stay right for the clauses. No call fails as long as literals fit a C integer. The statistics give the number of clauses and the highest variable.", "quantifier": "all lawful libraries, all histories of calls, all clauses and assumptions", "why_tests_cant": "The wrapper caches results in its state; a stale result shows only for particular orders of calls, and literals left over in the library only in later queries.", "anchors": ["ipasir/src/lib.rs: IpasirSolver, add_clause_ref, solve, solve_assumps, lit_val, core, get_core_assumps"]}
{"id": "C70", "title": "CaDiCaL wrapper with temporary clauses and simplification", "statement": "Around every correct library with CaDiCaL's extended interface, results of solving and simplifying are right for the clauses added so far, the temporary clause given since the last query, and the assumptions of the call; a temporary clause is forgotten after one query; whether it was needed is reported; cores consist of negated assumptions.", "quantifier": "all lawful libraries, all histories of adding clauses and temporary clauses, reserving variables, solving and simplifying", "why_tests_cant": "Cached results depend on which kind of query came before; errors show only for particular orders of three or more calls.", "anchors": ["cadical/src/lib.rs: add_tmp_clause, tmp_clause_in_core, simplify, simplify_assumps, solve, solve_assumps, lit_val, core, reserve"]}
{"id": "C71", "title": "MiniSat and Glucose wrappers answer for exactly the clauses added so far", "statement": "Around every correct solver of the kind of MiniSat, after any history of adding clauses, reserving variables and solving, the results are right for the clauses added so far and the assumptions of the call: the values of literals after Sat agree with one assignment and every assignment that agrees with them is a model, Unsat means that there is none, a core consists of negated assumptions and follows from the clauses. Reading a value never goes out of bounds.", "quantifier": "all lawful libraries, all histories of calls, all literals", "why_tests_cant": "The value of a literal must be right for every literal and at any time at which it may be read, also for literals that occur in no clause.", "anchors": ["minisat/src/core.rs, minisat/src/simp.rs: solve, solve_assumps, lit_val, core, reserve", "glucose/src/core.rs, glucose/src/simp.rs", "minisat/vendor/minisat/cminisat.cc: cminisat_val", "glucose/vendor/cglucose4.cc: cglucose4_val"]}
{"id": "C72", "title": "Kissat wrapper never lets the library abort", "statement": "Kissat aborts the process when a clause is added or a query is made after the first query. After any history of calls through the wrapper the process is not aborted: a repeated query returns the result of the first one, and a clause after the query is refused with an error that changes nothing. Results are right for the clauses added, and the statistics give the number of clauses and the highest variable.", "quantifier": "all libraries that behave like Kissat, all histories of calls", "why_tests_cant": "An abort takes the whole process down, and whether it happens depends on the result of the query and the calls since.", "anchors": ["kissat/src/lib.rs: add_clause_ref, solve, lit_val, reserve"]}
{"id": "C73", "title": "Callbacks in effect are those attached last, and are still alive", "statement": "After any history of attaching and detaching terminators and learners, the library calls the callbacks that were attached last and not detached, and each callback that it may call is still owned by the wrapper.", "quantifier": "all histories of attaching and detaching callbacks", "why_tests_cant": "A dangling pointer shows only if the callback is called later, and then as undefined behaviour.", "anchors": ["ipasir/src/lib.rs: attach_terminator, detach_terminator, attach_learner, detach_learner", "cadical/src/lib.rs: attach_terminator, detach_terminator, attach_learner, detach_learner"]}
{"id": "C74", "title": "Files for assignment problems describe the problem", "statement": "The pseudo-Boolean file that the tool writes for an assignment problem is read back as an instance whose solutions are exactly the matchings of tasks and agents, with one objective for each of the problem that is, up to a constant, the cost of the matching.", "quantifier": "all assignment problems whose costs and variables fit machine integers, all options of the writer", "why_tests_cant": "The encoding has a variable for every pair; a slip in an index shows only for some sizes and costs.", "anchors": ["tools/src/encodings/pb/assignment.rs: next", "tools/src/encodings/assignment.rs: cost, idx", "tools/src/bin/encodings.rs: write_pb"]}
{"id": "C75", "title": "Files for facility location describe the problem", "statement": "The pseudo-Boolean file that the tool writes for uncapacitated facility location is read back as an instance whose solutions are exactly the choices of open facilities and of an open facility for every customer, and whose objectives are, up to constants, the costs of supplying and opening.", "quantifier": "all problems whose costs and variables fit machine integers, all options of the writer", "why_tests_cant": "Costs and variables are addressed by computed indices for every pair of a customer and a facility.", "anchors": ["tools/src/encodings/pb/facilitylocation.rs: next", "tools/src/encodings/facilitylocation.rs: supply_cost, opening_cost, cidx, ridx"]}
{"id": "C76", "title": "Files for knapsacks describe the problem", "statement": "The pseudo-Boolean file that the tool writes for a knapsack is read back as an instance whose solutions are exactly the selections of items that fit, and minimising an objective of the file is maximising the value of the items taken.", "quantifier": "all knapsacks whose weights, capacity, values and variables fit machine integers, all options of the writer", "why_tests_cant": "Only the relation between all selections and the solutions of the file shows that the sign of values and the bound are right.", "anchors": ["tools/src/encodings/pb/knapsack.rs: next", "tools/src/encodings/knapsack.rs: Knapsack"]}
{"id": "C77", "title": "Files for correlation clustering describe the clusterings", "statement": "The CNF file that the tool writes for constrained correlation clustering is read back as an instance whose solutions give exactly the clusterings that respect the hard links, and whose two objectives are the weight of similar pairs that are separated and of dissimilar pairs that are together; with a single objective it is the sum of both. Numbers are ignored, soft or hard depending on the two thresholds.", "quantifier": "all lists of pairs of objects with similarities that fit machine integers, in any order and with repetitions", "why_tests_cant": "Clusters are bit strings compared bit by bit, and similarities are stored at computed indices of a triangular table; only the relation to all clusterings shows that no clustering is lost.", "anchors": ["tools/src/encodings/cnf/clustering.rs: new, sim_idx, next, saturating_map", "tools/src/bin/encodings.rs: write_cnf, clustering"]}
{"id": "C78", "title": "CNF files for knapsacks describe the sets of items that fit", "statement": "The CNF file that the tool writes for a multi-criteria knapsack is read back as an instance whose solutions restricted to the items are exactly the sets of items that fit, and whose objectives are, up to a constant, the negated values of the items taken; with a single objective it is the sum over the objectives.", "quantifier": "all knapsacks with any number of items, objectives and any capacity that fit machine integers", "why_tests_cant": "The capacity is encoded by a dynamic polynomial watchdog whose clauses depend on all weights; that no fitting set is lost and no other accepted is a statement about all assignments.", "anchors": ["tools/src/encodings/cnf/knapsack.rs: Encoding::new, next", "src/encodings/pb/mod.rs: encode_ub_constr", "tools/src/bin/encodings.rs: cnf_knapsack, write_cnf"]}
{"id": "C79", "title": "Problem files are read as the problem they describe", "statement": "A file in one of the supported formats (knapsacks of MOO-Library and vOptLib, facility location of vOptLib, assignment problems of MOO-Library) is read as exactly the numbers it gives, independently of comments, empty lines, spaces and the distribution over lines that the format allows. Anything else is rejected with an error: reading ends, does not panic, and never makes up or drops numbers.", "quantifier": "all files in the formats with numbers that fit machine integers, and all other texts", "why_tests_cant": "The parsers work line by line with hand-written state; which numbers end up in which place depends on every choice of spaces, comments and line breaks.", "anchors": ["tools/src/parsing.rs: single_value, comment_or_end, ListCallbackParser, SeparatedCallbackParser", "tools/src/encodings/knapsack.rs: parse_moolib, parse_voptlib", "tools/src/encodings/facilitylocation.rs: parse_voptlib", "tools/src/encodings/assignment.rs: parse_moolib, cost_mut"]}
{"id": "C80", "title": "shuffledimacs produces a renamed copy of its input", "statement": "For every CNF, WCNF or MCNF file that is read, and whatever the random choices are, the tool writes a file whose clauses are the clauses of the input, in some order, with the variables renamed by a bijection of the variables of the input. An assignment satisfies the new file iff it satisfies the input when read through the renaming, and it has the same costs. Re-indexing and shuffling any instance in memory has the same effect, and the manager's reverse mapping is the inverse of the renaming. The kind of the file is determined by its name, also for compressed files.", "quantifier": "all texts the readers accept (variables and weights within the limits of the formats), all permutations chosen by the random generator, all instances and objectives, all file names", "why_tests_cant": "the result is random, so a test can only compare some runs; a clash of two variables or a lost soft clause shows only for some permutations and files", "anchors": ["tools/src/bin/shuffledimacs.rs: main, determine_file_type", "src/instances/mod.rs: RandReindVarManager", "src/instances/sat.rs: Cnf::shuffle, Instance::reindex, Instance::shuffle", "src/instances/opt.rs: Objective::reindex, Objective::shuffle, Instance::reindex, Instance::shuffle", "src/instances/multiopt.rs: MultiOptInstance::reindex, shuffle"]}
{"id": "C81", "title": "Encodings that share a database", "statement": "Several totalizers, generalized totalizers and dynamic polynomial watchdogs may reference trees of one shared database, also trees built from other trees. After any history of building trees and watchdogs, reserving variables and encode calls, whenever bounds of any of these encodings are enforced at the same time, every model of the collected clauses and the assumptions respects all these bounds (for watchdogs: on the weights divided by the precision), and every assignment that respects all of them becomes such a model by changing only variables handed out to the encodings. Bounds covered by encode calls can be enforced; `encode_ub` forgets earlier upper bounds in the whole database, and then its clauses alone suffice for all upper bounds that can be enforced; `encode_lb` does the same for lower bounds. No call panics. `next_higher` and `next_lower` skip no attainable sum; `weight_sum` is the sum of the weights; `coarse_ub` gives a bound that is at most the given one and easy to encode.", "quantifier": "all databases, literals, weights, variable managers, all histories of operations on all encodings that reference the database, all sets of bounds", "why_tests_cant": "tests use one encoding per database; interference between encodings shows only in particular orders of calls of different encodings", "anchors": ["src/encodings/card/totalizer/referenced.rs: Tot, TotCell", "src/encodings/pb/gte/referenced.rs: Gte, GteCell", "src/encodings/totdb/mod.rs: Db::lit_tree, Db::weighted_lit_tree, Db::merge, Db::reset_encoded, Db::define_unweighted, Db::define_weighted, Db::reserve_vars", "src/encodings/pb/dpw/referenced.rs: DynamicPolyWatchdog, DynamicPolyWatchdogCell, from_con, encode_ub_change, enforce_ub, coarse_ub, weight_sum"]}
{"id": "C82", "title": "Splitting objectives into lexicographic ones", "statement": "`gbmosplit` splits the objective of an instance into objectives of increasing importance such that, for every two solutions, the first is lexicographically better exactly if the original objective is smaller; so lexicographic optima and optima coincide, also for the instance that is written as MCNF or OPB file and read again. The weights of each part are divided by their greatest common divisor, which is the reported multiplier, and the sum of the values with the multipliers is the original value. The objective is cut exactly where the chosen criterion (Boolean multilevel, greatest common divisor, generalized) holds, unless the limit on weight combinations is hit; the exit code says whether there is such a cut. Reported statistics are those of the objectives.", "quantifier": "all objectives with weights, all three algorithms, all limits on combinations, all WCNF and OPB files", "why_tests_cant": "whether a split preserves all optima depends on all subset sums of the weights; tests see a handful of weight lists", "anchors": ["tools/src/bin/gbmosplit.rs: split, perform_split, split_bmo, split_gbmo, get_sums_pot_splits_gcds, check_split_thorough_gbmo, gcd, main", "src/instances/opt.rs: Objective::into_soft_cls, Objective::min_weight, Objective::max_weight, Objective::weight_sum, Objective::n_softs"]}
{"id": "C83", "title": "The text of proofs says what the calls mean", "statement": "Whatever sequence of calls is made on a proof with well-formed arguments, the written text is a proof file that, when read, has the header, the number of constraints and then exactly the steps the calls stand for: operations, reverse unit propagation with hints, redundance and dominance with substitutions and sub-proofs, deletions, ranges, solutions, checks, levels and orders. Returned ids are those a checker gives to the constraints, also across sub-proofs. Concluding or dropping the proof writes the output guarantee and the chosen conclusion. Calls only panic for empty ranges and for missing objectives. Fresh proof variables never clash. The proofs of certified encodings are accepted by a checker that starts from the text, and a text accepted with the conclusion UNSAT implies that the formula is unsatisfiable.", "quantifier": "all histories of calls with all well-formed arguments, both keyword styles, all formulas and all texts", "why_tests_cant": "ids depend on the whole history and on every nested sub-proof; a misplaced separator or id only shows for particular combinations, and the tests check a few fixed proofs with an external checker", "anchors": ["pigeons/src/lib.rs: Proof::new, Proof::new_with_conclusion, Proof::new_id, Proof::write_subproof, Proof::operations, Proof::reverse_unit_prop, Proof::redundant, Proof::dominated, Proof::delete_ids, Proof::delete_id_range, Proof::update_objective, Proof::substitute, Proof::conclude, Proof::define_order, Drop for Proof", "pigeons/src/types.rs: ConstraintId, Axiom, Substitution, Derivation, ProofGoal, SubproofElement, Order, ObjectiveUpdate, Conclusion, OutputGuarantee, ConstrFormatter, ObjFormatter", "pigeons/src/ops.rs: Operation, OperationSequence", "src/types/mod.rs: PigeonVarFormatter, From<Lit> for Axiom"]}
{"id": "C84", "title": "The C interface to encodings means the same as the Rust one", "statement": "Whatever sequence of allowed calls a C program makes on a totalizer, generalized totalizer, binary adder, dynamic polynomial watchdog or at-most-one encoder, no call aborts the program, the integers passed to its callback are clauses terminated by zeros over the input variables and variables numbered from its counter n_vars_used, which is advanced past all of them, and if enforcing a bound returns assumptions then these and all clauses received so far enforce exactly that bound on the weighted sum of the integer literals added. Bounds in the inclusive range of an encode call can be enforced afterwards. Return codes tell exactly what was refused, and refused calls change nothing.", "quantifier": "all histories of calls with all integers, weights, bounds and counters; all assignments", "why_tests_cant": "the tests call each function on one or two fixed inputs; off-by-one errors between C and Rust numbering, of inclusive ranges or of the counter show for particular histories only", "anchors": ["capi/src/encodings/mod.rs: MaybeError, ClauseCollector, VarManager", "capi/src/encodings/card.rs: tot_new, tot_add, tot_reserve, tot_encode_ub, tot_enforce_ub, tot_encode_lb, tot_enforce_lb", "capi/src/encodings/pb.rs: gte_*, bin_adder_*, dpw_*", "capi/src/encodings/dpw.rs: dpw_set_precision, dpw_limit_range", "capi/src/encodings/am1.rs", "src/encodings/pb/dpw/mod.rs: DynamicPolyWatchdog::add_input"]}
{"id": "C85", "title": "Reserving reserves all variables the encoding needs", "statement": "After reserve was called on an incremental totalizer, generalized totalizer or dynamic polynomial watchdog, no call to an encode function takes a variable from the variable manager until input literals are added (or the precision is set), whatever was encoded before or after and however the variable manager is used otherwise in between.", "quantifier": "all histories of operations before reserve, all histories without adding literals after it, all ranges, all variable managers", "why_tests_cant": "tests compare variable counts of a few small encodings; an output missed by reserve shows only for particular tree shapes, weights, precisions and bounds", "anchors": ["src/encodings.rs, src/encodings/card/mod.rs, src/encodings/pb/mod.rs: EncodeIncremental::reserve", "src/encodings/totdb/mod.rs: Db::reserve_vars, Node::reserve_vars, Db::define_unweighted, Db::define_weighted", "src/encodings/card/totalizer/mod.rs: reserve", "src/encodings/pb/gte/mod.rs: reserve", "src/encodings/pb/dpw/mod.rs: reserve"]}
{"id": "C86", "title": "The conversion to integer linear programs preserves the Pareto front", "statement": "For every multi-objective instance, read from a DIMACS MCNF or an OPB file, whose coefficients fit, mo2ilp writes a 0/1 integer linear program in the chosen format (whose text denotes exactly one program) such that every solution of the program, restricted to the variables of the instance, satisfies the instance with at most the same costs, and every solution of the instance extends to one of the program with the same costs; hence both have the same non-dominated costs. Variables keep their numbers, or, if unused variables are removed, their order without gaps; if unused variables are set to zero, they are zero in all solutions.", "quantifier": "all instances, input texts, output formats, treatments of unused variables, assignments", "why_tests_cant": "tests compare a few outputs; negated literals, offsets, soft clauses and unused variables interact in every combination", "anchors": ["tools/src/bin/mo2ilp.rs: main, parse_instance, write_instance, write_objective, write_constraint", "src/instances/multiopt.rs: MultiOptInstance::{decompose, compose, var_set, reindex, reindex_ordered}", "src/instances/sat.rs: Instance::into_pbs", "src/instances/opt.rs: Objective::{convert_to_soft_lits, iter_soft_lits, var_set}"]}
{"id": "C87", "title": "Proof tracers get exactly the proof of the solver they are connected to, and only while they exist", "statement": "A tracer that is connected to a CaDiCaL solver is notified of every step of the proof of this solver, in order, from the moment it is connected until it is disconnected, and of no step of another solver; each notification carries the same identifiers, flags, literals, status and conclusion as the step. Disconnecting the tracer returns it, with the effect of these notifications; disconnecting it from a solver that it is not connected to is reported as an error; references to tracers show the tracer. No such program uses memory that has been freed.", "quantifier": "all programs, of any length, that create solvers, connect tracers of any type, let the solvers make steps in their proofs, disconnect tracers, borrow them, and drop solvers and handles", "why_tests_cant": "the memory of a tracer is shared between Rust, C++ and the program, and is freed in three places; whether memory is used after it was freed depends on the whole history of a program", "anchors": ["cadical/src/prooftracer.rs:CaDiCaL::connect_proof_tracer", "cadical/src/prooftracer.rs:CaDiCaL::disconnect_proof_tracer", "cadical/src/prooftracer.rs:CaDiCaL::proof_tracer_mut", "cadical/src/prooftracer.rs:ProofTracerHandle", "cadical/src/ffi/prooftracer.rs:DISPATCH_CALLBACKS", "cadical/cpp-extension/ctracer.cpp:ccadical_disconnect_proof_tracer"]}
{"id": "C88", "title": "Propagating assumptions reports what unit propagation derives, and leaves the solver as it was", "statement": "Propagating assumptions in a solver reports only literals that follow from the clauses and the assumptions, and reports a conflict only if the clauses have no model in which the assumptions hold. The solvers to which RustSAT adds the function itself report a conflict exactly if unit propagation runs into one, and otherwise exactly the literals that unit propagation derives and that are not fixed already. The call works for all assumptions, does not change which models the clauses have nor the trail of the solver, and what is reported by later calls is right.", "quantifier": "all histories of calls on a solver, all lists of assumptions, every order in which the solver propagates", "why_tests_cant": "which literals are derived depends on the clauses, on the order of assumptions and on the state that earlier calls left behind", "anchors": ["src/solvers/mod.rs:Propagate", "cadical/src/lib.rs:CaDiCaL::propagate", "minisat/src/core.rs:Minisat::propagate", "minisat/src/simp.rs:Minisat::propagate", "glucose/src/core.rs:Glucose::propagate", "minisat/vendor/minisat/core/Solver.cc:Solver::propCheck", "glucose/vendor/core/Solver.cc:Solver::propCheck", "cadical/cpp-extension/solver_extension.cpp:Solver::prop_check"]}
{"id": "C89", "title": "The propagator tool prints what follows from the assumptions, in the names of the input", "statement": "For every instance and all assumptions, the tool reports a conflict only if no solution of the instance has these assumptions; otherwise it prints literals, named as in the input, that hold in all solutions of the instance in which the assumptions hold.", "quantifier": "all instances with clauses, cardinality and pseudo-Boolean constraints, all lists of assumptions, in both notations", "why_tests_cant": "constraints are encoded with new variables, which share numbers with whatever the user names; this depends on the instance and the assumptions", "anchors": ["tools/src/bin/propagator.rs:main", "tools/src/bin/propagator.rs:Args"]}
{"id": "C90", "title": "The BatSat wrapper answers for exactly the clauses added so far", "statement": "Around a correct BatSat, after any history of adding clauses, reserving variables and solving, the results are right for the clauses added so far and the assumptions of the call: the values of literals after Sat agree with one assignment and every assignment that agrees with them is a model, Unsat means that there is none, a core consists of negated assumptions and follows from the clauses. Values can be read for all variables of clauses and assumptions, and for those that were reserved before the query. Statistics count the queries by result, and the highest variable is not below a variable in use.", "quantifier": "all correct solvers with the functions of BatSat, all histories of calls, all literals", "why_tests_cant": "answers are cached in the wrapper and must be right at any time at which they may be read; literals have another representation in BatSat", "anchors": ["batsat/src/lib.rs:Solver"]}
{"id": "C91", "title": "Sequences, iterators and variable managers of the Python interface behave as Python programs expect", "statement": "For clauses and CNF formulas in Python, indices and slices select the elements that they select in a list; an iterator yields the elements in order and ends, and raises RuntimeError if the sequence was modified since it was created; numbers of literals can be read back; methods of CNF formulas add what their names say; a variable manager returns fresh numbers and n_used is the highest number in use.", "quantifier": "all sequences, all arguments of __getitem__, all histories of modifications and of calls of iter and next with any number of iterators, all histories of calls of a variable manager", "why_tests_cant": "several iterators share one flag with the sequence, and casts to usize make negative numbers large; tests would have to guess the bad histories and arguments", "anchors": ["pyapi/src/types.rs:Clause", "pyapi/src/types.rs:Lit", "pyapi/src/types.rs:ClauseIter", "pyapi/src/instances.rs:Cnf", "pyapi/src/instances.rs:CnfIter", "pyapi/src/instances.rs:VarManager"]}
{"id": "C92", "title": "Encodings of the Python interface give CNFs and assumptions that enforce the bounds", "statement": "For Totalizer, GeneralizedTotalizer, BinaryAdder and DynamicPolyWatchdog in Python: after encode_ub, encode_lb or encode_both of a range, enforce_ub, enforce_lb and enforce_eq of bounds in the range give assumptions such that the models of all returned CNFs and the assumptions are exactly the assignments within the bound (new variables left out); calls never panic, exceptions are the documented ones, statistics are right and new variables come from the variable manager. The CNFs of the at-most-one encodings enforce that at most one literal is true.", "quantifier": "all lists of literals and weights, all histories of extend, encode_ub, encode_lb, encode_both and other uses of the variable manager, all bounds", "why_tests_cant": "the CNFs of several calls together must enforce each bound, for all histories of extensions and ranges; inclusive maxima of Python are converted to half-open ranges", "anchors": ["pyapi/src/encodings/card.rs:Totalizer", "pyapi/src/encodings/pb.rs:GeneralizedTotalizer", "pyapi/src/encodings/pb.rs:BinaryAdder", "pyapi/src/encodings/pb.rs:DynamicPolyWatchdog", "pyapi/src/encodings/am1.rs:encode"]}
{"id": "C93", "title": "The clustering tool reads the similarities that its input file states", "statement": "Every line [nodeA] [nodeB] [similarity value] of the input file gives an entry with these two nodes, blank lines and comments are skipped, and other lines are reported; the similarity of an entry is the value times the multiplier, truncated, minus the offset. The instance that is written for a file has the clusterings of the nodes of the file as solutions, with their costs.", "quantifier": "all texts of files, all identifiers and numbers (with exponents, infinities and NaN), all arguments of the tool", "why_tests_cant": "the space of texts is infinite, and the conversion from decimal to binary fractions and to fixed point depends on every digit", "anchors": ["tools/src/encodings/cnf/clustering.rs:Encoding::new", "tools/src/encodings/cnf/clustering.rs:ident", "tools/src/encodings/cnf/clustering.rs:scaling_map", "tools/src/encodings/cnf/clustering.rs:saturating_map", "tools/src/bin/encodings.rs:clustering"]}
{"id": "C94", "title": "DIMACS files are accepted exactly if they have the described form, and are read as the standard says", "statement": "A text is accepted as a CNF, WCNF or MCNF file exactly if, apart from blank lines and comments, it consists of the header (for CNF and old WCNF) and lines with clauses, and the result is then what the text says: a wrong file is rejected with an error, and an accepted file has the clauses that the DIMACS standard gives to its numbers.", "quantifier": "all texts", "why_tests_cant": "the space of texts is infinite; tests try valid files and a few broken ones", "anchors": ["src/instances/fio/dimacs.rs:Parser::forward_to_body", "src/instances/fio/dimacs.rs:Iterator for Parser<CnfBody, R>", "src/instances/fio/dimacs.rs:Iterator for Parser<Mcnf, R>", "src/instances/fio/dimacs.rs:clause", "src/instances/sat.rs:Instance::from_dimacs"]}
{"id": "C95", "title": "OPB files are accepted exactly if they consist of statements, and only those statements are read", "statement": "A text is accepted as an OPB file exactly if it is a sequence of blank lines, comments and statements (sums with a relation and a bound, or objectives); an instance is never built from a text of another form, and an instance that is built has the solutions and the objectives that the statements of the text describe.", "quantifier": "all texts, all numberings of variables, all variable managers", "why_tests_cant": "the space of texts is infinite; tests try valid files and a few broken ones", "anchors": ["src/instances/fio/opb.rs:opb_data", "src/instances/fio/opb.rs:constraint", "src/instances/fio/opb.rs:objective", "src/instances/fio/opb.rs:ending", "src/instances/sat.rs:Instance::from_opb", "src/instances/opt.rs:Instance::from_opb", "src/instances/multiopt.rs:MultiOptInstance::from_opb"]}
{"id": "C96", "title": "The solver with variable elimination answers for all clauses and never loses frozen variables", "statement": "With the preprocessing Glucose solver, results, models and cores are right for all clauses added so far, also those over variables that were eliminated; a frozen or assumed variable is never eliminated; `is_frozen` reports exactly the variables that were frozen and not melted since; an assumption over an eliminated variable is rejected with an error that names it and without changing the solver; nothing else fails.", "quantifier": "all sequences of calls (adding clauses, reserving, freezing and melting variables, queries with and without assumptions), all choices of the variables that are eliminated, all correct searches", "why_tests_cant": "which variables are eliminated depends on heuristics and limits; a wrong extension of the model or a lost variable only shows for some formulas and some histories", "anchors": ["glucose/src/simp.rs:Glucose", "glucose/src/simp.rs:var_eliminated", "glucose/src/simp.rs:solve_assumps", "glucose/src/simp.rs:freeze_var", "glucose/src/simp.rs:melt_var", "glucose/src/simp.rs:is_frozen", "glucose/vendor/cglucose4.cc:cglucosesimp4_solve", "glucose/vendor/simp/SimpSolver.cc:eliminateVar", "glucose/vendor/simp/SimpSolver.cc:extendModel"]}
{"id": "C97", "title": "Encoding calls that run out of memory can be repeated and leave no bound falsely accepted", "statement": "If an encoding call fails because the clause collector runs out of memory, then enforcing a bound either reports that it is not encoded or is right for the clauses really collected; repeating the call with enough memory makes all bounds of the range enforceable; bounds encoded before stay enforceable; clauses collected before are kept; the reported numbers of clauses and variables count everything that was collected and handed out.", "quantifier": "all input literals and weights, all histories of adding literals, encoding calls, reserving and using variables, all points at which any of the calls to the collector runs out of memory", "why_tests_cant": "unit tests do not run out of memory; a call can fail between any two of its clauses, and the effect only shows in later calls", "anchors": ["src/encodings/totdb/mod.rs:define_unweighted", "src/encodings/totdb/mod.rs:encode_unweighted", "src/encodings/totdb/mod.rs:define_weighted", "src/encodings/pb/gte.rs:encode_ub_change", "src/encodings/card/totalizer.rs:encode_ub_change", "src/encodings/mod.rs:CollectClauses"]}
{"id": "C98", "title": "Clause collectors keep every clause and report when memory runs out", "statement": "Extending a CNF formula by an iterator of clauses adds exactly these clauses in their order, or reports that memory ran out after adding a prefix of them (none if the iterator knows an upper bound); it never aborts the process by an allocation and fails only if there is no memory for the clauses. A solver used as a collector gets the clauses in order up to the first error and reports that memory ran out, and never panics.", "quantifier": "all formulas, all finite iterators with correct size hints, all behaviours of the allocator and of the solver", "why_tests_cant": "unit tests do not run out of memory and use few kinds of iterators; whether an allocation outside of a checked reservation happens depends on capacities, hints and lengths", "anchors": ["src/instances/sat.rs:extend_clauses", "src/utils.rs:LimitedIter", "src/solvers/mod.rs:extend_clauses", "src/solvers/mod.rs:pass_oom_or_panic", "src/encodings/mod.rs:CollectClauses", "kissat/src/lib.rs:add_clause_ref"]}
{"id": "C99", "title": "The CaDiCaL wrapper keeps the contracts of the library", "statement": "Whatever calls a safe program makes through the CaDiCaL wrapper, no call breaks a contract of the C++ library (which aborts the process in debug builds and is undefined behaviour in release builds); an error is returned instead. Values, flipped literals and cores that are read afterwards belong to a model or to the failed query over exactly the clauses added so far, also if other calls ran out of memory in between.", "quantifier": "all histories of calls (clauses, temporary clauses, queries with and without assumptions, simplification, propagation, options, proofs, limits, phases, frozen variables, declared variables), all answers of a correct library, all moments at which memory runs out", "why_tests_cant": "the library's state machine is distinct from the wrapper's; whether the two stay in step depends on whole histories of calls and on allocation failures at any call", "anchors": ["cadical/src/lib.rs:CaDiCaL", "cadical/src/lib.rs:solve_assumps", "cadical/src/lib.rs:add_tmp_clause", "cadical/src/lib.rs:declare_more_variables", "cadical/src/lib.rs:set_option", "cadical/src/lib.rs:flip_lit", "cadical/cpp-extension/ccadical_extension.cpp", "cadical/vendor/src/solver.cpp", "cadical/vendor/src/contract.hpp"]}
{"id": "C100", "title": "Options and configurations of Kissat and CaDiCaL", "statement": "An option of Kissat or CaDiCaL is found by its exact name. Setting it succeeds exactly if it exists (and, for Kissat, if the value is in its range); afterwards it has this value, clamped to its range for CaDiCaL, and no other option is changed; an error changes nothing. Reading an option returns its current value, which is always in its range, and an error for an unknown name. A configuration sets exactly the options it is documented to set, only in the state Configuring; the configuration Default restores the defaults.", "quantifier": "all option tables sorted by name, all names and values, all histories of settings and configurations; the tables of the vendored libraries as instances", "why_tests_cant": "there are more than 400 options with their own ranges, found by two different binary searches; a test tries a few names and values, not every name between two neighbours nor every sequence of settings", "anchors": ["kissat/src/lib.rs:set_option", "kissat/src/lib.rs:get_option", "kissat/src/lib.rs:set_configuration", "cadical/src/lib.rs:set_option", "cadical/src/lib.rs:get_option", "cadical/src/lib.rs:set_configuration", "kissat/vendor/src/options.c", "kissat/vendor/src/options.h", "cadical/vendor/src/options.cpp", "cadical/vendor/src/options.hpp", "cadical/vendor/src/config.cpp"]}
{"id": "C101", "title": "Extending an assignment of the inputs over a totalizer", "statement": "From any assignment of all input literals, `strictly_extend_assignment` of a totalizer or a generalized totalizer computes, without a panic and in finitely many steps, literals of the encoding's variables that do not contradict each other and cover all these variables in clauses. Together with the assignment of the inputs they satisfy all clauses that were emitted, and they satisfy the assumptions of an upper (lower) bound exactly if the bound holds. The value that the database computes for the root is the number of true input literals.", "quantifier": "all histories of adding literals, reserving, encoding upper and lower bounds; all assignments of the input literals; all bounds", "why_tests_cant": "the iterator walks a shared graph with a trace and a cache of partial values; whether it visits every node and combines the right values depends on the shape of the graph, i.e. on the whole history and on all assignments", "anchors": ["src/encodings/totdb/mod.rs:ValueIter", "src/encodings/totdb/mod.rs:AssignIter", "src/encodings/totdb/mod.rs:OLitIter", "src/encodings/totdb/mod.rs:value", "src/encodings/totdb/mod.rs:strictly_extend_assignment", "src/encodings/card/totalizer/mod.rs:strictly_extend_assignment", "src/encodings/pb/gte/mod.rs:strictly_extend_assignment"]}
{"id": "C102", "title": "Removing nodes from a totalizer database", "statement": "`drain` of a totalizer database removes exactly the nodes with ids in the given range and keeps every other node with its outputs, its children and its value for all inputs, under an id decreased by the number of nodes removed before it; leaves are found again under their new ids. It is refused exactly if another node references a node of the range, and then names such a pair of nodes and leaves the database as it was.", "quantifier": "all well-formed databases, all kinds of ranges, all nodes, all assignments of the input literals", "why_tests_cant": "whether references, look-ups and the dummy node are adjusted consistently depends on all shapes of the node graph and all positions of the range relative to them", "anchors": ["src/encodings/nodedb.rs:NodeById::drain", "src/encodings/nodedb.rs:DrainError", "src/encodings/totdb/mod.rs:Db::drain", "src/encodings/totdb/mod.rs:Node::drain"]}
{"id": "C103", "title": "The iterator over the leaves of a totalizer", "statement": "For every node of a totalizer database, the iterator over the literals at its leaves ends without a panic and yields literals with weights such that, whenever the outputs of nodes have their meaning, the weights of the true literals sum up to the value of the node. Outputs of other nodes count as leaves where a connection transmits only some of them. For certified totalizers in any state of a history these are the input literals.", "quantifier": "all well-formed databases without divided connections whose pseudo leaves are reserved, all nodes, all assignments; all histories of certified encodings", "why_tests_cant": "the iterator walks a graph with an explicit trace; weights are products along paths, and differences between values; whether every leaf is visited once per path depends on all shapes", "anchors": ["src/encodings/nodedb.rs:LeafIter", "src/encodings/nodedb.rs:LeafLitIter", "src/encodings/nodedb.rs:leaf_iter", "src/encodings/totdb/mod.rs:Node::lit"]}
{"id": "C104", "title": "Resetting the variables of a database of totalizers", "statement": "`reset_vars` takes the variables of all outputs away and forgets what was encoded, and nothing else: nodes, connections and the values of trees stay, what is left does not depend on the encode and reserve calls made before, and no bound can be enforced that needs clauses. The database can then be used again with another variable manager that knows the input literals and without the old clauses: bounds covered by a call can be enforced, the new clauses with the assumptions admit exactly the assignments that respect the bound, and no clause has a variable that was handed out before.", "quantifier": "all histories of building trees and watchdogs in a shared database, of calls on encodings that reference it and of resets, all variable managers, all bounds", "why_tests_cant": "stale variables or semantics show only after particular histories of calls, for particular outputs and managers", "anchors": ["src/encodings/totdb/mod.rs: Db::reset_vars", "src/encodings/card/totalizer/referenced.rs: Tot", "src/encodings/pb/gte/referenced.rs: Gte", "src/encodings/pb/dpw/referenced.rs: DynamicPolyWatchdog"]}
{"id": "C105", "title": "Formulas built with operators", "statement": "An expression of `!`, `|` and `&` over variables, literals, clauses, CNFs and instances compiles exactly for the documented operand types, and its value is satisfied by exactly the assignments that satisfy the expression read as a Boolean formula.", "quantifier": "all expressions of any size and nesting over all values, all assignments", "why_tests_cant": "there are unboundedly many expressions, and each combination of operand types has its own implementation", "anchors": ["src/types/operators.rs: Not, Neg, BitOr, BitOrAssign, BitAnd, BitAndAssign"]}
{"id": "C106", "title": "Arithmetic on variables and literals", "statement": "Adding a number to a variable or literal gives the variable with the increased index and keeps the sign of the literal; subtracting undoes it. If there is no such variable, the operation panics and never gives another variable.", "quantifier": "all variables, literals and numbers, builds with and without overflow checks", "why_tests_cant": "failures need indices at the ends of the range and depend on the build", "anchors": ["src/types/mod.rs: Add<u32> for Var, Sub<u32> for Var, Add<u32> for Lit, Sub<u32> for Lit"]}
{"id": "C107", "title": "Sequences of proof operations", "statement": "A sequence of proof operations that is built by sums, products, quotients, saturations and weakenings, with or without assigning operators, has exactly the operations of this expression in reverse polish notation; operands that are empty leave no operation behind. `is_empty` holds exactly for sequences that cannot be written. Building panics exactly when a sequence that is not empty is divided by zero.", "quantifier": "all expressions of any size", "why_tests_cant": "the representation has special cases for sequences without and with one operation, which combine in every operator", "anchors": ["pigeons/src/ops.rs: OperationSequence, IntOpSeq, OpSeqIter"]}
{"id": "C108", "title": "Average clause length in solver statistics", "statement": "At any time the statistics of a solver give the number of clauses that were added and their mean length.", "quantifier": "all sequences of clauses added to a solver", "why_tests_cant": "the average is updated incrementally from a counter, so that a wrong order or counter shows only for clauses of different lengths", "anchors": ["src/solvers/mod.rs: SolverStats, SolveStats::avg_clause_len", "minisat/src/core.rs: update_avg_clause_len", "batsat/src/lib.rs: update_avg_clause_len"]}
