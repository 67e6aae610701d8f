E="Gkc.Encode."
c("C01","proved",[E+"C01_int_roundtrip",E+"C01_int_history",E+"C01_double_roundtrip",E+"C01_record_roundtrip",E+"C01_local_handle_fails"],
  "Decoding goes through the handle offsets are relative to (the attached knowledge base, if any); C01_local_handle_fails shows decoding through the local handle is wrong when a knowledge base is attached.")
c("C02","proved",[E+"C02_type_recovered",E+"C02_no_confusion",E+"C02_never_illegal"],
  "Anonymous constants are stored by the code as uri strings (Db/dbdata.c:2846) and are covered by the long string case.")
c("C03","partial",[E+"C03_immediate_roundtrip_partial",E+"C03_var_roundtrip_iff",E+"C03_date_not_rejected",E+"C03_others_not_rejected",E+"C03_time_shift_ub"],
  "Round trips hold on the stated ranges; the full claim is false because range checks are compiled out: out of range values are accepted and corrupted (witnesses).")
K="Gkc.Calendar."
c("C04","proved",[K+"C04_date_roundtrip",K+"C04_every_number_is_a_date",K+"C04_counts_days",K+"C04_accepts_invalid_day",K+"C04_year_zero_wraps"],
  "For all dates whose day number fits an int. Findings: nonexistent days and year 0 are accepted.")
c("C05","proved",[K+"C05_time_roundtrip",K+"C05_time_monotone",K+"C05_every_number_is_a_time",K+"C05_accepts_invalid_time"],
  "Finding: hour 24, minute 60 and second 60 are accepted.")
P="Gkc.Props."
c("C06","proved",[P+"C06_equal_term_decides",P+"C06_equal_mod_banks"],"Constants are compared by value (strings interned).")
c("C07","partial",[P+"C07_match_sound",P+"C07_match_complete",P+"C07_match_answer_right",P+"C07_match_decides_partial",P+"C07_match_number_against_record"],
  "Every answer given is right, but the code can also use a number as a record address (a number in the general term against a compound term), shown by the last theorem.")
c("C08","proved",[P+"C08_unify_terminates",P+"C08_unify_terminates_from",P+"C08_unify_acyclic",P+"C08_unify_deterministic",P+"C08_unify_mgu",P+"C08_unify_fails_only_without_unifier",P+"C08_unify_incremental"],"")
c("C09","proved",[P+"C09_clear_restores",P+"C09_clear_slice_restores",P+"C09_stack_bounded"],"")
c("C10","partial",[P+"C10_quick_check_admissible_partial",P+"C10_flags",P+"C10_prefix_hash_overflow"],
  "Holds for atoms beginning with at most 2147 constants; false beyond (the int prefix hash overflows into the depth field), witness given.")
c("C11","partial",[P+"C11_subsume_exact_partial",P+"C11_subsume_yes_implies"],
  "Exact for sorted specific clauses; yes answers are right for any order. Missing: numbers in the general clause (C07) and atoms beginning with more than 2147 constants (C10). Answer literals count as equal when one answer is required.")
c("C12","partial",[P+"C12_clause_check_admissible_partial",P+"C12_ground_general_rejected",P+"C12_fact_never_subsumed",P+"C12_count_255_rejected"],
  "False in three cases, each proved: ground general against nonground specific clause, specific fact clauses, a count equal to 255.")
c("C13","proved",[P+"C13_resolution_sound",P+"C13_resolvent_exact",P+"C13_shared_atom_unsound"],
  "For clauses without an atom of both signs, which the tautology check guarantees for kept clauses (C16_tautology_check_admits); the last theorem shows the hypothesis is needed.")
c("C14","proved",[P+"C14_factoring_sound",P+"C14_equality_reflexivity_sound"],
  "Equality atoms are assumed to have two arguments; the factored literals are separate records.")
c("C15","partial",[P+"C15_para_from_sound",P+"C15_replaces_one_position",P+"C15_every_position_offered",P+"C15_positions_distinct",P+"C15_para_into_sound_partial",P+"C15_para_into_literal_256_unsound"],
  "Paramodulation into the given clause is unsound when the equation is literal number 256 or later (witness); sound otherwise.")
c("C16","proved",[P+"C16_resolvent_equivalent",P+"C16_dropped_resolvent_valid",P+"C16_dropped_only_for_many_variables",P+"C16_paramodulant_equivalent",P+"C16_dropped_paramodulant_valid",P+"C16_factor_equivalent",P+"C16_tautology_check",P+"C16_tautology_check_valid",P+"C16_tautology_check_admits"],
  "Evaluation of terms during assembly is a parameter assumed right in the interpretation.")
c("C17","partial",[P+"C17_equivalent_partial",P+"C17_removed_are_general",P+"C17_never_empties",P+"C17_defined_without_clash",P+"C17_constant_against_record"],
  "Holds whenever the outcome is defined; comparing a constant with a compound term uses the constant as a record address (witness).")
c("C18","proved",[P+"C18_unit_cut_exact",P+"C18_unit_cut_sound",P+"C18_subsumed_implied",P+"C18_strong_cut_sound",P+"C18_strong_cut_complete",P+"C18_double_cut_sound",P+"C18_simplify_sound",P+"C18_simplify_fact_sound",P+"C18_derived_clause_sound"],
  "The hash tables are lists of candidates, renamed copies are left out (C30) and rewriting is a parameter assumed sound (C19). The first strong cut attempt runs under left-over bindings, which can hide a cut but is sound.")
c("C19","partial",[P+"C19_rewrite_sound_partial",P+"C19_rewrite_atom_sound_partial",P+"C19_literals_sound_partial",P+"C19_shared_symbol_unsound",P+"C19_shared_predicate_unsound"],
  "Sound when no symbol that is alone one side of an equation is also used as a function symbol, and no predicate symbol heads an equation side; false otherwise, both witnesses proved. Computing of terms is a parameter assumed right in the interpretation.")
c("C20","proved",[P+"C20_rewriting_terminates",P+"C20_no_infinite_rewriting",P+"C20_result_not_bigger",P+"C20_result_irreducible"],
  "For equations with at most 1000 different variables per side (every stored clause) and computing that makes terms smaller; also the recursive rewriting code itself is shown to finish.")
c("C21","partial",[P+"C21_never_both",P+"C21_irreflexive",P+"C21_transitive",P+"C21_stable",P+"C21_context",P+"C21_smaller_has_no_new_variables",P+"C21_no_infinite_descent",P+"C21_total_on_ground",P+"C21_many_variables_not_stable"],
  "For terms with at most 1000 different variables (every stored clause); false beyond, witness given. Constants stand for their words, so a number stored twice out of line counts as two constants.")
c("C22","proved",[P+"C22_priority_queue_refines",P+"C22_each_pushed_once"],
  "Refinement of a reference list for every history and every content of fresh memory; allocation is assumed to succeed.")
c("C23","proved",[P+"C23_fair",P+"C23_empty_only_when_all_picked",P+"C23_never_stuck",P+"C23_picked_at_most_twice",P+"C23_picked_twice"],
  "For every infinite run and every ratio setting. Finding: every clause is picked twice, because marking of given clauses is switched off. The hyperresolution queue, which is served first, is not part of the model.")
c("C24","partial",[P+"C24_index_complete_partial",P+"C24_index_sound",P+"C24_lookup_ends",P+"C24_some_literal_not_storable",P+"C24_some_literal_not_found"],
  "Complete for every history that did not stop with an error. False beyond: abs(INT_MIN) in the bucket number makes the prover exit on some literals, for example p(16747,338028). The left shifts of the hash overflow a signed 64-bit integer for most three-symbol prefixes; the model lets them wrap.")
c("C25","proved",[P+"C25_vector_keeps",P+"C25_cvec_refines",P+"C25_pushed_reads_back",P+"C25_termhash_refines",P+"C25_term_hash_range"],
  "For positions up to 2^30, beyond which the doubled length overflows an int; allocation is assumed to succeed; the words of fresh memory are arbitrary.")
c("C26","proved",[P+"C26_negpush_equivalent",P+"C26_negpush_accepts"],
  "Every formula whose connectives have at least two arguments is accepted; the result is in negation normal form and equivalent.")
c("C27","partial",[P+"C27_miniscope_equivalent_partial",P+"C27_miniscope_total",P+"C27_third_argument_lost",P+"C27_quoted_name_rejected"],
  "For connectives with two arguments (what the negation push builds) and quantifiers that keep plain variable names. A third argument is lost, and a quoted name equal to a variable makes the formula be rejected (witnesses).")
c("C28","partial",[P+"C28_skolem_equisatisfiable_partial",P+"C28_skolem_names",P+"C28_skolem_accepts",P+"C28_user_skolem_name_unsound"],
  "Both directions for every interpretation, when the formula has no name $skN for a later N. False otherwise: $sk1 written by the user is taken for the first Skolem constant (witness).")
c("C29","partial",[P+"C29_distribute_equisatisfiable_partial",P+"C29_plain_distribution_equivalent",P+"C29_distribution_ends",P+"C29_flatten_equivalent",P+"C29_user_newpred_name_unsound",P+"C29_quoted_true_dropped"],
  "Both directions for every interpretation, when the formula has no name $dfN for a later N; without definitions no condition. False otherwise: $df1 written by the user is taken for the first new predicate (witness). A quoted '$true' is taken for the constant (witness).")
c("C35","proved",[P+"C35_para_into_stored_complete",P+"C35_para_from_stored_complete",P+"C35_para_into_stored_sound"],
  "For literal numbers up to 255 and positions up to 60000, as documented in the code; strategy switches that limit paramodulation are off.")
c("C30","proved",[P+"C30_copy_is_variant",P+"C30_copy_terminates",P+"C30_refused_only_for_many_variables",P+"C30_truth_only_from_constants",P+"C30_banks_disjoint",P+"C30_copy_undone",P+"C30_evaluated_false_loses_clause"],
  "Finding: with evaluation on, an atom evaluating to false makes the whole copied clause false.")
c("C34","proved",[P+"C34_sort_permutes_descending",P+"C34_bigger_is_weak_order"],"")
c("C31","proved",[P+"C31_sum_exact_or_kept",P+"C31_difference_exact_or_kept",P+"C31_product_exact_or_kept",P+"C31_uminus_exact_or_kept",P+"C31_comparisons_exact",P+"C31_no_undefined_behaviour",P+"C31_evaluation_has_model"],
  "Every computation is free of undefined behaviour but $substrat with two arguments, which reads behind the record (in the theorem). All the computing together is true in an interpretation with equality, so the hypotheses on computing in C13-C19 can be met.")
c("C32","partial",[P+"C32_quotient_truncates",P+"C32_zero_divisor_kept",P+"C32_quotient_least_kept",P+"C32_remainders_truncate",P+"C32_quotient_t_partial",P+"C32_quotient_f_partial",P+"C32_quotient_e_only_exact",P+"C32_euclidean_wrong",P+"C32_remainder_f_wrong",P+"C32_quotient_t_above_2_53"],
  "$quotient with $remainder_t is right everywhere. $quotient_t and $quotient_f are right below 2^53 and wrong above (witness). $quotient_e is right only if the division is exact, and $remainder_e and $remainder_f are the truncating remainder (witnesses).")
c("C36","partial",[P+"C36_equality_right",P+"C36_data_equality_decided",P+"C36_list_parts",P+"C36_list_parts_kept",P+"C36_type_predicates_wrong"],
  "Equality and list parts are right; $is_list and $is_distinct return the first element of a list and are not computed for numbers and distinct symbols (proved).")
c("C37","partial",[P+"C37_strict_comparison_partial",P+"C37_lesseq_partial",P+"C37_lesseq_mixed_wrong",P+"C37_large_integer_wrong",P+"C31_comparisons_exact"],
  "Integers are compared exactly. Between integers and doubles: right up to 2^53 for strict comparison; 1<=1.0 is computed to false.")
c("C38","partial",[P+"C38_substr_right",P+"C38_substrat_partial",P+"C38_substrat_wrong",P+"C38_substr_of_constants"],
  "$strlen and $substr are right. $substrat compares one character only (witness); $substr is also computed for ordinary constants.")
c("C33","partial",[P+"C33_kept_clauses_follow_partial",P+"C33_refutation_sound_partial",P+"C33_refutation_means_unsatisfiable_partial",P+"C33_refutation_sound_arith_partial",P+"C33_answers_hold_partial",P+"C33_shared_symbol_refutes_satisfiable"],
  "For every run of the loop's steps, any choices, with the evaluation the prover has, when each symbol is used in one role (predicate, function or constant) and active clauses have at most 256 literals. False without the first condition: f=g, p(f(a)), -p(g(a)) is satisfiable and refuted (proved run). Not in the model: propagation, hyperresolution queue, stale index entries (C39).")
c("C39","partial",[P+"C39_entries_keep_their_clause_partial",P+"C39_all_entries_keep_their_clause_partial",P+"C39_simplified_given_entry_changes"],
  "For all entries into the queue and active buffers. False for given clauses that simplification shortened to two literals: the entry points into the buffer of the given clause, which is used again, and later cuts are wrong (witness).")
c("C40","partial",[P+"C40_proof_means_consequence_partial",P+"C40_large_integer_false_proof",P+"C40_shared_symbol_false_proof"],
  "From formulas through all passes of the clausifier and the building of clauses to a refutation by the loop, for every structure with two or more elements. Each symbol must have one role, integers must be below 2^31, and names of the clausifier must not be used; false otherwise (two false proofs shown: p(4294967297) proves p(1); f=g with p(f(a)) proves p(g(a))). Several conjectures count as their disjunction and free variables of a conjecture are read existentially. Missing: structures with one element, evaluation of computable symbols, the lexer and grammar.")
c("C41","proved",[P+"C41_consequence_means_contradictory",P+"C41_consequence_iff_contradictory",P+"C41_problem_accepted"],
  "All passes of the clausifier and the building of clauses, in both directions. Outside the conditions see C27 (third argument lost, quoted name rejected), C28, C29 and C40.")
c("C42","partial",[P+"C42_objects",P+"C42_alloc",P+"C42_free_partial",P+"C42_free_marked",P+"C42_free_refused",P+"C42_free_reads_outside"],
  "For requests below 2^37 words. Everything but freeing holds for all runs. Freeing an object whose head does not carry the mark 'left neighbour is free' succeeds and gives the space back; an object with the mark is refused with -4 (an offset is compared in place of a head) or memory outside of objects is read, both shown by runs. Contents of one data area of wg_alloc_gints; the fixed-length areas are not in the model.")
c("C43","partial",[P+"C43_raw_records",P+"C43_data_records",P+"C43_create",P+"C43_delete_partial",P+"C43_deleted_still_given"],
  "The listing is exact for all runs of the allocator. Deleting is right for records without the mark of C42; false otherwise: wg_delete_record does not look at the result of wg_free_object, returns 0, and the record is still given (run shown). Fields that need freeing and indexes are not in the model.")
c("C44","partial",[P+"C44_exclusion_partial",P+"C44_queue_lock",P+"C44_two_writers"],
  "Holds for all runs in which no process leaves FUTEX_WAIT while its field waiting is still set, other than by the time limit. False otherwise: the code does not look at the field again after FUTEX_WAIT; a signal, or a late FUTEX_WAKE for a node that was freed and is used again, gives two processes the write lock (run of three processes without signals proved). Memory is sequentially consistent, locks are given back by those who have them.")
c("C45","partial",[P+"C45_order_partial",P+"C45_first_served_partial",P+"C45_stall"],
  "Order holds for the runs of C44. The first request always has the lock unless a process gives up just when the lock was given to it; then nobody passes the lock on: all processes that wait or come later sleep until their time is over although the lock is free (run proved).")
c("C46","partial",[P+"C46_contradiction_sound",P+"C46_file_sound",P+"C46_file_format",P+"C46_ground_exact",P+"C46_instances_exact_partial",P+"C46_instance_lost",P+"C46_bucket_in_table",P+"C46_no_stale_read_partial",P+"C46_stale_read",P+"C46_solver_sound_partial",P+"C46_shared_files"],
  "Reported contradictions are right for all clauses, constants and hash functions, and the file is proper DIMACS. Exact for clauses without variables, and with variables when the constant does not occur in the clauses. False otherwise: wr_term_basehash normalises the constant's hash twice for a variable, p(X) and ~p(a) with the constant a are given different numbers. With a million atoms the value of an atom is read through the address prop_varvals had before it was moved. The file names are the same for all processes: a process can report a proof for the clauses of another one (proved for the interleaving).")
c("C47","partial",[P+"C47_instance_sound",P+"C47_instance_exact_partial",P+"C47_instance_too_special"],
  "The clauses follow from their parents, for all bindings and renamings left behind. They mean the same as the instance by the unifier if no variable was renamed before. False in general: variables renamed while the resolvent was built stay bound, but the counter starts again, so different variables are made equal: from p(f(X))|q(U) and -p(Z)|r(a) the clause p(f(V))|q(V) is made. The saturation loop of C33 includes these inferences.")
c("C48","partial",[P+"C48_listing_partial",P+"C48_references",P+"C48_checkable",P+"C48_tptp_partial",P+"C48_position_lost",P+"C48_para_exchanged",P+"C48_cut_lost",P+"C48_input_read_past",P+"C48_tptp_propinst",P+"C48_extprop_alone"],
  "For all derivations with positions below 16, at most 98 cuts in a step, and no paramodulation into the given clause at different positions. False otherwise (shown by listings): positions are masked to 4 bits; paramodulation into the given clause shows the two positions exchanged; the 99th cut is missing; the TPTP format lists the term of a propositional instance as premise '0'; a result of the external solver has no premises. An input record has no field 5, and the word behind it is read: undefined if it looks like the head of an arithmetic instance.")
c("C49","partial",[P+"C49_document_partial",P+"C49_proof_partial",P+"C49_one_value",P+"C49_digits",P+"C49_merge_not_json",P+"C49_inst_not_json",P+"C49_extprop_not_json",P+"C49_sum_not_json",P+"C49_backslash_not_json",P+"C49_name_not_json",P+"C49_integer_wrong"],
  "For all documents whose names have no backslash or control character, without arithmetic operators inside terms, and without the rules merge and inst at print level 10 (they are fine from level 11 on) and extprop. False otherwise, shown by documents: factoring and propositional instances lack a comma, a result of the external solver has a bracket too many, sums are unquoted words, backslashes and the names of input formulas are not escaped, integers are cut to 32 bits.")
c("C50","partial",[P+"C50_answers_are_answers_partial",P+"C50_proof_without_answer_partial",P+"C50_answer_literals_positive",P+"C50_answers_listed_once",P+"C50_enough_answers",P+"C50_answer_vector",P+"C50_second_proof_undefined",P+"C50_order_counts_twice",P+"C50_negative_answer"],
  "From the question in the file to the reported clause, for all runs of the loop, under the conditions of C40, if $ans is not used in the problem; that the clausifier then keeps $ans positive is proved. False otherwise: the sign of $ans is not looked at, so -$ans(a) of a user is reported (run). With more than one answer asked for, a proof without answer and any other answer make wr_same_answers read at NULL; the same literals in another order count as a second answer. A picked rule clause of answer literals is registered as NULL by the code, so that answer is lost; the model has it as an answer.")
c("C51","proved",[P+"C51_same_word_iff_same_name",P+"C51_word_decodes",P+"C51_again",P+"C51_uri_list",P+"C51_ids_differ",P+"C51_short_is_new",P+"C51_prefix_lost",P+"C51_uri_unlisted",P+"C51_ids_clash"],
  "For any allocators that give unused places or fail; languages, types and prefixes are C strings. Not so (with witnesses): a long prefix in the same place of the hash array as its name is lost from the chain, so the prefix can be in memory twice (no word given to the user is affected); a URI whose list cell could not be allocated is found the next time but is never in the list; the numbers of names are unique in one database only, a knowledge base and the database it is attached to use the same numbers. Not in the model: freeing strings, NULL in the place of a string.")
c("C52","partial",[P+"C52_compare_right_partial",P+"C52_compare_total_partial",P+"C52_nan_both_less",P+"C52_language_ignored"],
  "For databases without doubles that are not numbers, where immediate values and records are determined by their words and the fields of records are values. Missing, because it is false: with NaN each of two words is less than the other (C52_nan_both_less). Strings that differ in language only are the same (C52_language_ignored), a missing prefix is the same as an empty one. Doubles are compared through their bits (the order of the bits is proved to be the order of the numbers), fixed point numbers through their ten-thousandths.")
c("C53","partial",[P+"TT.C53_index_right_partial",P+"TT.C53_index_total_partial",P+"TT.C53_depth",P+"TT.C53_chain",P+"TT.C53_no_memory",P+"TT.C53_create_index",P+"TT.C53_database",P+"TT.C53_row_lost"],
  "For all orders (C53_database: WG_COMPARE of a database as in C52 is one). Missing, because it is false: an addition that fails for want of memory may lose another row (C53_row_lost; C53_no_memory says exactly what may happen). Nodes are a tree with names for the chain; that the predecessor of a node in the chain is the rightmost node of its left subtree, as the code assumes, is C53_chain. Heights are numbers, in the code unsigned char; by C53_depth they stay far below 256. Index templates and the hooks that call the index are not part of this model.")
c("C54","partial",[P+"Qu.C54_query_partial",P+"Qu.C54_find_record_partial",P+"Qu.C54_clash_wrong",P+"Qu.C54_illegal_wrong",P+"Qu.C54_count_unset"],
  "For databases whose T-trees have the records they should have (by C53 for all sequences of additions and removals; that the hooks make them is not part of this) and conditions with values. Missing, because it is false: 'greater than v and less than v' on an indexed column can give all records greater than v (C54_clash_wrong); WG_ILLEGAL as a value is taken for no bound (C54_illegal_wrong); res_count is not set when the bounds are in the wrong order (C54_count_unset). An invalid condition number is ignored by wg_make_query, so it asks for the column only. Missing from the model: JSON queries, failing malloc, the reading of stored values from a query cursor after a change of the database.")
c("C55","partial",[P+"Ih.C55_current_partial",P+"Ih.C55_hooks",P+"Ih.C55_field_hooks",P+"Ih.C55_record_not_indexed",P+"Ih.C55_record_not_indexed_wrong",P+"Ih.C55_template_twice",P+"Ih.C55_stale_key",P+"Ih.C55_dead_row",P+"Ih.C55_delete_fails",P+"Ih.C55_second_removal",P+"Ih.C55_stale_removal"],
  "True as long as no call does harm, and the first call that does harm leaves an index that is not current. Missing, because it is false in this build: wg_create_record and wg_set_new_field do not update indexes (C55_record_not_indexed, C55_stale_key, C55_dead_row), wg_create_array and the like put a record twice in an index with a template (C55_template_twice), and a record in such an index cannot be deleted if its key lies between others (C55_delete_fails, C55_second_removal). The hooks for a change of a field are right but not called (C55_field_hooks). Trees are given by their rows (C53); hash indexes, exhausted memory and records that are referred to are not in the model.")
c("C56","partial",[P+"Js.C56_meaning_partial",P+"Js.C56_empty",P+"Js.C56_rest_dropped",P+"Js.C56_conjunct_dropped",P+"Js.C56_negated_capital",P+"Js.C56_proposition",P+"Js.C56_tilde",P+"Js.C56_two_signs",P+"Js.C56_null",P+"Js.C56_empty_string",P+"Js.C56_names",P+"Js.C56_three",P+"Js.C56_word_argument"],
  "Proved for the whole notation except two things that are false: a negated predicate whose name has to be quoted becomes another symbol than the predicate itself (C56_negated_capital), and an atom without arguments is not the proposition of that name (C56_proposition). Names that are words of the language are left out (C56_names, C56_word_argument, C56_empty_string), and so are lists the documentation does not describe (C56_empty, C56_rest_dropped, C56_tilde, C56_two_signs, C56_three). JSON objects, @context and null (C56_null) are not in the specification.")
c("C57","partial",[P+"Js.C57_proof_means_consequence_partial",P+"Js.C57_answers_are_answers_partial",P+"Js.C57_every_problem_is_read"],
  "C56, C36-C40 and C50 put together: structures are those of the documentation, not those of the symbols. Each name is to be used in one role and is a variable everywhere in a statement or nowhere; $ans, $pr, $sk1.. and $df1.. are not used. Missing: numbers other than natural numbers below 2^31, structures with one element, computable symbols, and the keys of the objects around the formulas (the role of a statement is given).")
c("C58","partial",[P+"Calc.C58_proof_means_consequence_partial",P+"Calc.C58_answers_are_answers_partial",P+"Calc.C58_proof_without_answer_partial",P+"Calc.C58_ordinary_arithmetic",P+"Calc.C58_structure_exists",P+"Calc.C58_numbers_exist",P+"Calc.C58_skolem_name_false_proof"],
  "C40 and C50 without the assumption that nothing is computed: the run uses the evaluation of the prover (C31). Computes says what is to be true in a structure; Numbers says it in terms of ordinary arithmetic (exact integers, rounded doubles, rounding to integers, lengths, lists) and implies it; C58_numbers_exist gives one structure for all of its symbols. A run with the evaluation is a run with one that only touches terms that keep to the roles (EvalRun). Missing: $substr, $substrat, $is_list, $is_map, $is_atom, $is_distinct, symbols used in two roles. False with $substr: exists X: -$substr(\"sk\",X) is refuted because of the name of the Skolem constant. $lesseq(1,1.0) computes false, so $lesseq and $greatereq are in Computes but not in Numbers. Structures have to have the doubles, because the model lets variables be bound to any number (arithmetic instances).")
c("C59","partial",[P+"Dp.C59_restored_partial",P+"Dp.C59_accepted",P+"Dp.C59_damage_refused",P+"Dp.C59_length_refused",P+"Dp.C59_reader_spoils_dump",P+"Dp.C59_writer_spoils_dump",P+"Dp.C59_old_dump_lost",P+"Dp.C59_not_crc32",P+"Dp.C59_table",P+"Dp.C59_import_succeeds",P+"Dp.C59_refused_untouched"],
  "The round trip for all databases when nothing changes meanwhile. Missing, because it is false: a reader that comes between computing the checksum and writing (the queue lock is in the segment), or a writer that takes memory between reading the size and getting the lock, leaves a file that is refused although wg_dump returned 0. Four changed bytes are found outside of the checksum or in it, not across its border. Pointers of the old process in the header are restored as bytes. Writing to the file is taken not to fail.")
c("C60","partial",[P+"Cv.C60_formula_partial",P+"Cv.C60_file_partial",P+"Cv.C60_empty",P+"Cv.C60_capture",P+"Cv.C60_capture_differs",P+"Cv.C60_object",P+"Cv.C60_variable",P+"Cv.C60_true",P+"Cv.C60_backslash",P+"Cv.C60_backslash_not_json",P+"Cv.C60_zero",P+"Cv.C60_list",P+"Cv.C60_leftover",P+"Cv.C60_include_last",P+"Cv.C60_include_empty",P+"Cv.C60_roles",P+"Cv.C60_buffer",P+"Cv.C60_buffer_kept"],
  "For formulas whose names are no words of JSON-LD-LOGIC and have no backslash; negated atoms need plain names (C56). Missing, because it is false: quoted constants with the name of a quantified variable, names with the prefixes of objects and variables, names beginning with $true, backslashes, numbers with zeros in front, lists, formulas that are just a proposition, an include at the end. The objects are read by C56 from the value under @logic; the reading of the objects themselves, numbers with a fraction and the lexer are not modelled.")
c("C61","proved",[P+"C61_finished_means_satisfiable",P+"C61_proof_means_unsatisfiable",P+"C61_answers_agree",P+"C61_search_settles_conjecture",P+"C61_size_limit_hides_proof"],
  "For problems without equations, arithmetic and answer literals, with any choice of literals that is a Selection (all literals, or those of C63), and clauses with atoms of more than 2147 symbols before the first variable thrown away by the size limit (their prefix hashes leave the range of int, C10). The condition that no clause was thrown away is needed: with a size limit the same end of the search is reached for a contradiction, and the program does not remember the loss.")
c("C62","proved",[P+"C62_fair_search_finds_proof",P+"C62_oldest_again_and_again"],
  "Same problems and strategy as C61. The picking of clauses is a parameter that may differ from round to round; C23_fair shows that the picking queues of the program pick every pushed clause. Memory and the limits on size and weight are hypotheses: without them C61_size_limit_hides_proof is a counterexample.")
c("C63","partial",[P+"C63_choice_loses_nothing_partial",P+"C63_finished_means_satisfiable_partial",P+"C63_oldest_again_and_again_partial",P+"C63_knuthbendix_chooses_largest",P+"C63_preferred_sign",P+"C63_symbols_have_one_ranking",P+"C63_one_ranking_iff",P+"C63_hardness_loses_proof",P+"C63_number_between_symbols_loses_proof"],
  "Same problems as C61. Missing, because it is false: hardness_pref without one of the other three (four clauses whose only resolvents are tautologies), and the order when the word of a number is between those of two symbols: symbols are compared with each other by number of creation, with a number by word where the larger one is smaller, so three constants can compare in a circle, and a clause can then have no chosen literal. Where the comparison agrees with one ranking of the constants that occur in the problem all other combinations are covered; C63_one_ranking_iff shows that this is exactly when no such number occurs in the problem, so it holds for every problem without numbers. Not covered: hyperresolution, query focus, answer literals.")
c("C64","partial",[P+"C64_filter_ends",P+"C64_kept_are_input",P+"C64_proof_is_right",P+"C64_goals_kept",P+"C64_outside_dropped",P+"C64_kept_relevant",P+"C64_kept_iff",P+"C64_kept_few",P+"C64_without_goals",P+"C64_no_common_predicate",P+"C64_connected_lose_nothing_partial",P+"C64_rare_symbols_lose_nothing_partial",P+"C64_frequent_symbol_loses_proof",P+"C64_trigger_limit_loses_proof"],
  "Termination, soundness, the goals and the exact set of clauses used are for all inputs (the exact set if there are fewer clauses than can be triggered, otherwise one inclusion and a bound). Missing, because it is false: that no proof is lost. A symbol in five clauses does not trigger a fact with a rarer symbol, and the strategies other than 1 trigger only ten clauses in problems of fewer than 110; both with witnesses. Proofs are kept where the symbols near the goals trigger all their clauses, for example where every symbol is rare. Not covered: an attached knowledge base, and equality in the last theorems.")
c("C65","partial",[P+"Fd.C65_calls_do_what_they_should_partial",P+"Fd.C65_fields_readable_partial",P+"Fd.C65_record_kept_partial",P+"Fd.C65_set_field_does_nothing",P+"Fd.C65_delete_never_refused",P+"Fd.C65_delete_of_referring_fails",P+"Fd.C65_no_parents",P+"Fd.C65_delete_destroys_other_record",P+"Fd.C65_free_destroys_string_in_use",P+"Fd.C65_delete_leaves_dangling_reference",P+"Fd.C65_without_quick_calls_do_what_they_should",P+"Fd.C65_without_quick_fields_readable",P+"Fd.C65_without_quick_record_kept",P+"Fd.C65_without_quick_parents_partial",P+"Fd.C65_without_quick_parents_endless"],
  "Without QUICK_REASONER all of it except the loop over the parents is proved for all calls that keep to the rules (values are there, a value with an object of its own is stored once). The program is compiled with QUICK_REASONER; then it is proved only for calls that avoid what is left out, and false otherwise: wg_set_field stores nothing and returns 0; counts of references stay 0, so deleting a record or freeing a value frees a string that other records have, and they then show whatever is stored in its place; a record others refer to is deleted; a record that refers to a record cannot be deleted. The loop over the parents does not end if a record refers to another twice. Not in the model: indexes (C55), failing allocation, the prefix of a string as an object of its own, an attached knowledge base.")
c("C66","partial",[P+"Ps.C66_file_partial",P+"Ps.C66_left_partial",P+"Ps.C66_size",P+"Ps.C66_unambiguous",P+"Ps.C66_no_blanks",P+"Ps.C66_missing_operand",P+"Ps.C66_arithmetic",P+"Ps.C66_unclosed",P+"Ps.C66_unknown_characters",P+"Ps.C66_backslash",P+"Ps.C66_long"],
  "The scanner and the parser are modelled by their tables. Proved for all files of formulas with names, numbers, distinct objects, equations, all connectives and quantifiers, infix arithmetic in parentheses; statements with fewer than 9997 tokens. Missing, because it is false: names followed by < > : + - * / without a blank, backslashes in quotes, names in quotes of 1024 bytes or more, arithmetic without parentheses; and wrong texts are often accepted (missing operand, unclosed quote, unknown characters). Not covered: ?x variables, floating point numbers, dates, clauses with brackets, annotations, include.")
c("C67","partial",[P+"Pb.C67_proof_means_consequence_partial",P+"Pb.C67_every_statement_is_read",P+"Pb.C67_consequence_means_contradictory",P+"Pb.C67_search_settles_the_file",P+"Pb.C67_proof_is_found",P+"Pb.C67_source_hides_the_formula",P+"Pb.C67_source_example",P+"Pb.C67_cnf_role_ignored",P+"Pb.C67_quantifier_in_clause",P+"Pb.C67_quotes_make_another_name"],
  "From the text to the answer, over C66, C40 and C41. Proved for files of fof statements, cnf statements that are not conjectures, and formulas alone, with each name in one role, integers below 2^31, no computable symbols evaluated, in structures with at least two elements; several conjectures count as their disjunction, and free variables of a conjecture are existential. The way back needs every name always or never in quotes. Missing, because it is false: statements with a source after the formula become an atom fof(...) and a conjecture is then lost; the role of cnf statements is ignored; 'a' and a are different constants. For problems whose clauses are ordinary (C61: no equations, no answers) a search that ends settles whether a conjecture follows, and a fair search finds a proof if one does. Files with include: C68.")
c("C68","partial",[P+"Inc.C68_everything_is_read",P+"Inc.C68_no_error_is_lost",P+"Inc.C68_proof_means_consequence_partial",P+"Inc.C68_search_settles_the_problem",P+"Inc.C68_proof_is_found",P+"Inc.C68_second_folder_is_lost",P+"Inc.C68_missing_file_is_no_error",P+"Inc.C68_only_includes_refused",P+"Inc.C68_formula_in_included_file",P+"Inc.C68_file_in_itself"],
  "Proved for all problems whose include names lead to the same file from each of the folders in which files of the problem lie (all files in one folder, or all of them in the folder for axioms), under the conditions of C67 on the statements. Missing, because it is false: after a file in another folder names are looked for from there, so that axioms are silently lost; a missing file is no error; a problem with nothing but include statements is refused; formulas alone in included files are not clausified; a file that includes itself is read without end. Not covered: include with a list of names (read as a formula, C67).")
c("C69","partial",[P+"Inc.C69_status_partial",P+"Inc.C69_clauses",P+"Inc.C69_no_conjecture",P+"Inc.C69_include_forgets"],
  "Proved for problems in one file that have a conjecture or no fof statement, and for problems in any number of files with clauses only. Missing, because it is false: fof axioms that contradict each other give Theorem without any conjecture, and a file without fof statements that is included before the conjecture gives Unsatisfiable for a problem with a conjecture.")
c("C70","partial",[P+"Hx.C70_exact_partial",P+"Hx.C70_once_partial",P+"Hx.C70_none_missed",P+"Hx.C70_hashable",P+"Hx.C70_large_integers",P+"Hx.C70_language",P+"Hx.C70_uri_prefix",P+"Hx.C70_two_zeros",P+"Hx.C70_blob"],
  "Proved for all sequences of additions and removals and all values with integers in the range of a C int, strings without a language, and URIs and XML literals that do not begin with a control character; that no row with the same values is missed holds for all values that can be hashed. Missing, because it is false: integers are cut to 32 bits, the language of a string is left out, and the prefix of a URI can be confused with a URI in front of it, so that rows with other values are given. The linked lists of the table are modelled as lists.")
c("C71","partial",[P+"Jq."+x for x in ["C71_exact_partial","C71_indexes_agree","C71_unique_partial","C71_intersect_partial","C71_deep","C71_deep_pair","C71_outside","C71_shared","C71_too_few_places","C71_too_large"]],
  "Proved for all databases in which documents share no records, are at most six references deep and contain every record with one of the pairs, with any indexes that give what a comparison would, and sets of up to 201326611 documents. Missing, because it is false: a deeper document or a matching record outside of all documents makes the whole query fail, of documents that share a record only the first one is found, and larger sets do not fit in the key table. The pages of a result set are modelled as a list.")
c("C72","partial",[P+"Eh."+x for x in ["C72_exact_partial","C72_added","C72_translate_partial","C72_succeeds_partial","C72_few","C72_old_value","C72_value_changes","C72_eight_times","C72_capacity"]],
  "Proved for all sequences of different keys: what was added is found and nothing else, and every addition succeeds unless eight keys agree in the 22 low bits of the hash. Missing, because it is false: a key that is added again gives the old value or, after a bucket was split, the new one; the eighth addition of a key fails and a ninth writes past the end of the bucket; and there is no room for more than 29360128 keys. The table is always compiled, the replay of the log (translate_offset) only with USE_DBLOG, which config-gcc.h leaves undefined.")
c("C73","partial",[P+"Gd."+x for x in ["C73_runs_partial","C73_shared_out_partial","C73_one_process_partial","C73_no_runs","C73_ten_runs","C73_ten_runs_forever","C73_one_too_many","C73_sequence","C73_values"]],
  "Proved for all strategies whose runs are objects and of which there are not exactly ten, for any number of processes: the runs of each process, their order, the stop at a proof, and the settings of each search. Missing, because it is false: with exactly ten runs no run is made (10 is also the sign for a sequence) and one process reports the end of the search without any search, while several processes search with the outer settings without an end; and each process that does not have the last run makes one search more, with the outer settings only. Not covered: the end of the time for all runs, and what sequences do in detail.")
c("C74","partial",[P+"Ag."+x for x in ["C74_fits_partial","C74_runs_partial","C74_all_made_partial","C74_longer","C74_huge","C74_special_fits","C74_special_runs","C74_special_none"]],
  "Proved for all problems with fewer than 100000000 clauses, in the build for native systems, with or without the special parameter for large theories: at most 50000 bytes, 43 to 429 runs. Of each line of the text the model has the number of characters (tools/auto_table.py makes the tables from the source). Missing, because it is false: with 100000000 clauses or more no run is written, unless all clauses are equations. Not covered: that the text is read back as written.")
c("C75","partial",[P+"Is."+x for x in ["C75_right_partial","C75_equality_partial","C75_unit_equality_partial","C75_parameters_partial","C75_measures","C75_defined","C75_no_clauses","C75_too_long"]],
  "Proved for all lists of clauses, with and without a shared database, unless both are empty: twenty-seven numbers are right, and what follows for equality. Missing, because it is false: with an empty file and an empty shared database the numbers of clauses are divided by zero (C75_defined: this is the only case), and the least length, depth, size or number of variables is not found if all clauses have more than 100000. The size, the depth and the number of variables of a clause are those of its terms (C75_measures). The counters and the stack of variables are unbounded in the model. The averages, which nothing uses, and the counts of chains and symbols (C76) are left out.")
c("C76","partial",[P+"Oc."+x for x in ["C76_counted_partial","C76_compared_partial","C76_shared","C76_limit"]],
  "Proved for all problems without a shared database: the numbers are those of the occurrences, at most 65536 positive and 8191 negative ones. Missing, because it is false: above these limits symbols are not told apart, and with a shared database the occurrences in the file are not counted at all. Integers of the database are modelled as natural numbers; all that arise are below 2^33.")
