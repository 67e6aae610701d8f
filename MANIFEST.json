{
 "claims": [
  {
   "property": "C01",
   "status": "proved",
   "theorems": [
    "Gkc.Encode.C01_int_roundtrip",
    "Gkc.Encode.C01_int_history",
    "Gkc.Encode.C01_double_roundtrip",
    "Gkc.Encode.C01_record_roundtrip",
    "Gkc.Encode.C01_local_handle_fails"
   ],
   "note": "Decoding goes through the handle offsets are relative to (the attached knowledge base, if any); C01_local_handle_fails shows decoding through the local handle is wrong when a knowledge base is attached."
  },
  {
   "property": "C02",
   "status": "proved",
   "theorems": [
    "Gkc.Encode.C02_type_recovered",
    "Gkc.Encode.C02_no_confusion",
    "Gkc.Encode.C02_never_illegal"
   ],
   "note": "Anonymous constants are stored by the code as uri strings (Db/dbdata.c:2846) and are covered by the long string case."
  },
  {
   "property": "C03",
   "status": "partial",
   "theorems": [
    "Gkc.Encode.C03_immediate_roundtrip_partial",
    "Gkc.Encode.C03_var_roundtrip_iff",
    "Gkc.Encode.C03_date_not_rejected",
    "Gkc.Encode.C03_others_not_rejected",
    "Gkc.Encode.C03_time_shift_ub"
   ],
   "note": "Round trips hold on the stated ranges; the full claim is false because range checks are compiled out: out of range values are accepted and corrupted (witnesses)."
  },
  {
   "property": "C04",
   "status": "proved",
   "theorems": [
    "Gkc.Calendar.C04_date_roundtrip",
    "Gkc.Calendar.C04_every_number_is_a_date",
    "Gkc.Calendar.C04_counts_days",
    "Gkc.Calendar.C04_accepts_invalid_day",
    "Gkc.Calendar.C04_year_zero_wraps"
   ],
   "note": "For all dates whose day number fits an int. Findings: nonexistent days and year 0 are accepted."
  },
  {
   "property": "C05",
   "status": "proved",
   "theorems": [
    "Gkc.Calendar.C05_time_roundtrip",
    "Gkc.Calendar.C05_time_monotone",
    "Gkc.Calendar.C05_every_number_is_a_time",
    "Gkc.Calendar.C05_accepts_invalid_time"
   ],
   "note": "Finding: hour 24, minute 60 and second 60 are accepted."
  },
  {
   "property": "C06",
   "status": "proved",
   "theorems": [
    "Gkc.Props.C06_equal_term_decides",
    "Gkc.Props.C06_equal_mod_banks"
   ],
   "note": "Constants are compared by value (strings interned)."
  },
  {
   "property": "C07",
   "status": "partial",
   "theorems": [
    "Gkc.Props.C07_match_sound",
    "Gkc.Props.C07_match_complete",
    "Gkc.Props.C07_match_answer_right",
    "Gkc.Props.C07_match_decides_partial",
    "Gkc.Props.C07_match_number_against_record"
   ],
   "note": "Every answer given is right, but the code can also use a number as a record address (a number in the general term against a compound term), shown by the last theorem."
  },
  {
   "property": "C08",
   "status": "proved",
   "theorems": [
    "Gkc.Props.C08_unify_terminates",
    "Gkc.Props.C08_unify_terminates_from",
    "Gkc.Props.C08_unify_acyclic",
    "Gkc.Props.C08_unify_deterministic",
    "Gkc.Props.C08_unify_mgu",
    "Gkc.Props.C08_unify_fails_only_without_unifier",
    "Gkc.Props.C08_unify_incremental"
   ],
   "note": ""
  },
  {
   "property": "C09",
   "status": "proved",
   "theorems": [
    "Gkc.Props.C09_clear_restores",
    "Gkc.Props.C09_clear_slice_restores",
    "Gkc.Props.C09_stack_bounded"
   ],
   "note": ""
  },
  {
   "property": "C10",
   "status": "partial",
   "theorems": [
    "Gkc.Props.C10_quick_check_admissible_partial",
    "Gkc.Props.C10_flags",
    "Gkc.Props.C10_prefix_hash_overflow"
   ],
   "note": "Holds for atoms beginning with at most 2147 constants; false beyond (the int prefix hash overflows into the depth field), witness given."
  },
  {
   "property": "C11",
   "status": "partial",
   "theorems": [
    "Gkc.Props.C11_subsume_exact_partial",
    "Gkc.Props.C11_subsume_yes_implies"
   ],
   "note": "Exact for sorted specific clauses; yes answers are right for any order. Missing: numbers in the general clause (C07) and atoms beginning with more than 2147 constants (C10). Answer literals count as equal when one answer is required."
  },
  {
   "property": "C12",
   "status": "partial",
   "theorems": [
    "Gkc.Props.C12_clause_check_admissible_partial",
    "Gkc.Props.C12_ground_general_rejected",
    "Gkc.Props.C12_fact_never_subsumed",
    "Gkc.Props.C12_count_255_rejected"
   ],
   "note": "False in three cases, each proved: ground general against nonground specific clause, specific fact clauses, a count equal to 255."
  },
  {
   "property": "C13",
   "status": "proved",
   "theorems": [
    "Gkc.Props.C13_resolution_sound",
    "Gkc.Props.C13_resolvent_exact",
    "Gkc.Props.C13_shared_atom_unsound"
   ],
   "note": "For clauses without an atom of both signs, which the tautology check guarantees for kept clauses (C16_tautology_check_admits); the last theorem shows the hypothesis is needed."
  },
  {
   "property": "C14",
   "status": "proved",
   "theorems": [
    "Gkc.Props.C14_factoring_sound",
    "Gkc.Props.C14_equality_reflexivity_sound"
   ],
   "note": "Equality atoms are assumed to have two arguments; the factored literals are separate records."
  },
  {
   "property": "C15",
   "status": "partial",
   "theorems": [
    "Gkc.Props.C15_para_from_sound",
    "Gkc.Props.C15_replaces_one_position",
    "Gkc.Props.C15_every_position_offered",
    "Gkc.Props.C15_positions_distinct",
    "Gkc.Props.C15_para_into_sound_partial",
    "Gkc.Props.C15_para_into_literal_256_unsound"
   ],
   "note": "Paramodulation into the given clause is unsound when the equation is literal number 256 or later (witness); sound otherwise."
  },
  {
   "property": "C16",
   "status": "proved",
   "theorems": [
    "Gkc.Props.C16_resolvent_equivalent",
    "Gkc.Props.C16_dropped_resolvent_valid",
    "Gkc.Props.C16_dropped_only_for_many_variables",
    "Gkc.Props.C16_paramodulant_equivalent",
    "Gkc.Props.C16_dropped_paramodulant_valid",
    "Gkc.Props.C16_factor_equivalent",
    "Gkc.Props.C16_tautology_check",
    "Gkc.Props.C16_tautology_check_valid",
    "Gkc.Props.C16_tautology_check_admits"
   ],
   "note": "Evaluation of terms during assembly is a parameter assumed right in the interpretation."
  },
  {
   "property": "C17",
   "status": "partial",
   "theorems": [
    "Gkc.Props.C17_equivalent_partial",
    "Gkc.Props.C17_removed_are_general",
    "Gkc.Props.C17_never_empties",
    "Gkc.Props.C17_defined_without_clash",
    "Gkc.Props.C17_constant_against_record"
   ],
   "note": "Holds whenever the outcome is defined; comparing a constant with a compound term uses the constant as a record address (witness)."
  },
  {
   "property": "C18",
   "status": "proved",
   "theorems": [
    "Gkc.Props.C18_unit_cut_exact",
    "Gkc.Props.C18_unit_cut_sound",
    "Gkc.Props.C18_subsumed_implied",
    "Gkc.Props.C18_strong_cut_sound",
    "Gkc.Props.C18_strong_cut_complete",
    "Gkc.Props.C18_double_cut_sound",
    "Gkc.Props.C18_simplify_sound",
    "Gkc.Props.C18_simplify_fact_sound",
    "Gkc.Props.C18_derived_clause_sound"
   ],
   "note": "The hash tables are lists of candidates, renamed copies are left out (C30) and rewriting is a parameter assumed sound (C19). The first strong cut attempt runs under left-over bindings, which can hide a cut but is sound."
  },
  {
   "property": "C19",
   "status": "partial",
   "theorems": [
    "Gkc.Props.C19_rewrite_sound_partial",
    "Gkc.Props.C19_rewrite_atom_sound_partial",
    "Gkc.Props.C19_literals_sound_partial",
    "Gkc.Props.C19_shared_symbol_unsound",
    "Gkc.Props.C19_shared_predicate_unsound"
   ],
   "note": "Sound when no symbol that is alone one side of an equation is also used as a function symbol, and no predicate symbol heads an equation side; false otherwise, both witnesses proved. Computing of terms is a parameter assumed right in the interpretation."
  },
  {
   "property": "C20",
   "status": "proved",
   "theorems": [
    "Gkc.Props.C20_rewriting_terminates",
    "Gkc.Props.C20_no_infinite_rewriting",
    "Gkc.Props.C20_result_not_bigger",
    "Gkc.Props.C20_result_irreducible"
   ],
   "note": "For equations with at most 1000 different variables per side (every stored clause) and computing that makes terms smaller; also the recursive rewriting code itself is shown to finish."
  },
  {
   "property": "C21",
   "status": "partial",
   "theorems": [
    "Gkc.Props.C21_never_both",
    "Gkc.Props.C21_irreflexive",
    "Gkc.Props.C21_transitive",
    "Gkc.Props.C21_stable",
    "Gkc.Props.C21_context",
    "Gkc.Props.C21_smaller_has_no_new_variables",
    "Gkc.Props.C21_no_infinite_descent",
    "Gkc.Props.C21_total_on_ground",
    "Gkc.Props.C21_many_variables_not_stable"
   ],
   "note": "For terms with at most 1000 different variables (every stored clause); false beyond, witness given. Constants stand for their words, so a number stored twice out of line counts as two constants."
  },
  {
   "property": "C22",
   "status": "proved",
   "theorems": [
    "Gkc.Props.C22_priority_queue_refines",
    "Gkc.Props.C22_each_pushed_once"
   ],
   "note": "Refinement of a reference list for every history and every content of fresh memory; allocation is assumed to succeed."
  },
  {
   "property": "C23",
   "status": "proved",
   "theorems": [
    "Gkc.Props.C23_fair",
    "Gkc.Props.C23_empty_only_when_all_picked",
    "Gkc.Props.C23_never_stuck",
    "Gkc.Props.C23_picked_at_most_twice",
    "Gkc.Props.C23_picked_twice"
   ],
   "note": "For every infinite run and every ratio setting. Finding: every clause is picked twice, because marking of given clauses is switched off. The hyperresolution queue, which is served first, is not part of the model."
  },
  {
   "property": "C24",
   "status": "partial",
   "theorems": [
    "Gkc.Props.C24_index_complete_partial",
    "Gkc.Props.C24_index_sound",
    "Gkc.Props.C24_lookup_ends",
    "Gkc.Props.C24_some_literal_not_storable",
    "Gkc.Props.C24_some_literal_not_found"
   ],
   "note": "Complete for every history that did not stop with an error. False beyond: abs(INT_MIN) in the bucket number makes the prover exit on some literals, for example p(16747,338028). The left shifts of the hash overflow a signed 64-bit integer for most three-symbol prefixes; the model lets them wrap."
  },
  {
   "property": "C25",
   "status": "proved",
   "theorems": [
    "Gkc.Props.C25_vector_keeps",
    "Gkc.Props.C25_cvec_refines",
    "Gkc.Props.C25_pushed_reads_back",
    "Gkc.Props.C25_termhash_refines",
    "Gkc.Props.C25_term_hash_range"
   ],
   "note": "For positions up to 2^30, beyond which the doubled length overflows an int; allocation is assumed to succeed; the words of fresh memory are arbitrary."
  },
  {
   "property": "C26",
   "status": "proved",
   "theorems": [
    "Gkc.Props.C26_negpush_equivalent",
    "Gkc.Props.C26_negpush_accepts"
   ],
   "note": "Every formula whose connectives have at least two arguments is accepted; the result is in negation normal form and equivalent."
  },
  {
   "property": "C27",
   "status": "partial",
   "theorems": [
    "Gkc.Props.C27_miniscope_equivalent_partial",
    "Gkc.Props.C27_miniscope_total",
    "Gkc.Props.C27_third_argument_lost",
    "Gkc.Props.C27_quoted_name_rejected"
   ],
   "note": "For connectives with two arguments (what the negation push builds) and quantifiers that keep plain variable names. A third argument is lost, and a quoted name equal to a variable makes the formula be rejected (witnesses)."
  },
  {
   "property": "C28",
   "status": "partial",
   "theorems": [
    "Gkc.Props.C28_skolem_equisatisfiable_partial",
    "Gkc.Props.C28_skolem_names",
    "Gkc.Props.C28_skolem_accepts",
    "Gkc.Props.C28_user_skolem_name_unsound"
   ],
   "note": "Both directions for every interpretation, when the formula has no name $skN for a later N. False otherwise: $sk1 written by the user is taken for the first Skolem constant (witness)."
  },
  {
   "property": "C29",
   "status": "partial",
   "theorems": [
    "Gkc.Props.C29_distribute_equisatisfiable_partial",
    "Gkc.Props.C29_plain_distribution_equivalent",
    "Gkc.Props.C29_distribution_ends",
    "Gkc.Props.C29_flatten_equivalent",
    "Gkc.Props.C29_user_newpred_name_unsound",
    "Gkc.Props.C29_quoted_true_dropped"
   ],
   "note": "Both directions for every interpretation, when the formula has no name $dfN for a later N; without definitions no condition. False otherwise: $df1 written by the user is taken for the first new predicate (witness). A quoted '$true' is taken for the constant (witness)."
  },
  {
   "property": "C35",
   "status": "proved",
   "theorems": [
    "Gkc.Props.C35_para_into_stored_complete",
    "Gkc.Props.C35_para_from_stored_complete",
    "Gkc.Props.C35_para_into_stored_sound"
   ],
   "note": "For literal numbers up to 255 and positions up to 60000, as documented in the code; strategy switches that limit paramodulation are off."
  },
  {
   "property": "C30",
   "status": "proved",
   "theorems": [
    "Gkc.Props.C30_copy_is_variant",
    "Gkc.Props.C30_copy_terminates",
    "Gkc.Props.C30_refused_only_for_many_variables",
    "Gkc.Props.C30_truth_only_from_constants",
    "Gkc.Props.C30_banks_disjoint",
    "Gkc.Props.C30_copy_undone",
    "Gkc.Props.C30_evaluated_false_loses_clause"
   ],
   "note": "Finding: with evaluation on, an atom evaluating to false makes the whole copied clause false."
  },
  {
   "property": "C34",
   "status": "proved",
   "theorems": [
    "Gkc.Props.C34_sort_permutes_descending",
    "Gkc.Props.C34_bigger_is_weak_order"
   ],
   "note": ""
  },
  {
   "property": "C31",
   "status": "proved",
   "theorems": [
    "Gkc.Props.C31_sum_exact_or_kept",
    "Gkc.Props.C31_difference_exact_or_kept",
    "Gkc.Props.C31_product_exact_or_kept",
    "Gkc.Props.C31_uminus_exact_or_kept",
    "Gkc.Props.C31_comparisons_exact",
    "Gkc.Props.C31_no_undefined_behaviour",
    "Gkc.Props.C31_evaluation_has_model"
   ],
   "note": "Every computation is free of undefined behaviour but $substrat with two arguments, which reads behind the record (in the theorem). All the computing together is true in an interpretation with equality, so the hypotheses on computing in C13-C19 can be met."
  },
  {
   "property": "C32",
   "status": "partial",
   "theorems": [
    "Gkc.Props.C32_quotient_truncates",
    "Gkc.Props.C32_zero_divisor_kept",
    "Gkc.Props.C32_quotient_least_kept",
    "Gkc.Props.C32_remainders_truncate",
    "Gkc.Props.C32_quotient_t_partial",
    "Gkc.Props.C32_quotient_f_partial",
    "Gkc.Props.C32_quotient_e_only_exact",
    "Gkc.Props.C32_euclidean_wrong",
    "Gkc.Props.C32_remainder_f_wrong",
    "Gkc.Props.C32_quotient_t_above_2_53"
   ],
   "note": "$quotient with $remainder_t is right everywhere. $quotient_t and $quotient_f are right below 2^53 and wrong above (witness). $quotient_e is right only if the division is exact, and $remainder_e and $remainder_f are the truncating remainder (witnesses)."
  },
  {
   "property": "C36",
   "status": "partial",
   "theorems": [
    "Gkc.Props.C36_equality_right",
    "Gkc.Props.C36_data_equality_decided",
    "Gkc.Props.C36_list_parts",
    "Gkc.Props.C36_list_parts_kept",
    "Gkc.Props.C36_type_predicates_wrong"
   ],
   "note": "Equality and list parts are right; $is_list and $is_distinct return the first element of a list and are not computed for numbers and distinct symbols (proved)."
  },
  {
   "property": "C37",
   "status": "partial",
   "theorems": [
    "Gkc.Props.C37_strict_comparison_partial",
    "Gkc.Props.C37_lesseq_partial",
    "Gkc.Props.C37_lesseq_mixed_wrong",
    "Gkc.Props.C37_large_integer_wrong",
    "Gkc.Props.C31_comparisons_exact"
   ],
   "note": "Integers are compared exactly. Between integers and doubles: right up to 2^53 for strict comparison; 1<=1.0 is computed to false."
  },
  {
   "property": "C38",
   "status": "partial",
   "theorems": [
    "Gkc.Props.C38_substr_right",
    "Gkc.Props.C38_substrat_partial",
    "Gkc.Props.C38_substrat_wrong",
    "Gkc.Props.C38_substr_of_constants"
   ],
   "note": "$strlen and $substr are right. $substrat compares one character only (witness); $substr is also computed for ordinary constants."
  },
  {
   "property": "C33",
   "status": "partial",
   "theorems": [
    "Gkc.Props.C33_kept_clauses_follow_partial",
    "Gkc.Props.C33_refutation_sound_partial",
    "Gkc.Props.C33_refutation_means_unsatisfiable_partial",
    "Gkc.Props.C33_refutation_sound_arith_partial",
    "Gkc.Props.C33_answers_hold_partial",
    "Gkc.Props.C33_shared_symbol_refutes_satisfiable"
   ],
   "note": "For every run of the loop's steps, any choices, with the evaluation the prover has, when each symbol is used in one role (predicate, function or constant) and active clauses have at most 256 literals. False without the first condition: f=g, p(f(a)), -p(g(a)) is satisfiable and refuted (proved run). Not in the model: propagation, hyperresolution queue, stale index entries (C39)."
  },
  {
   "property": "C39",
   "status": "partial",
   "theorems": [
    "Gkc.Props.C39_entries_keep_their_clause_partial",
    "Gkc.Props.C39_all_entries_keep_their_clause_partial",
    "Gkc.Props.C39_simplified_given_entry_changes"
   ],
   "note": "For all entries into the queue and active buffers. False for given clauses that simplification shortened to two literals: the entry points into the buffer of the given clause, which is used again, and later cuts are wrong (witness)."
  },
  {
   "property": "C40",
   "status": "partial",
   "theorems": [
    "Gkc.Props.C40_proof_means_consequence_partial",
    "Gkc.Props.C40_large_integer_false_proof",
    "Gkc.Props.C40_shared_symbol_false_proof"
   ],
   "note": "From formulas through all passes of the clausifier and the building of clauses to a refutation by the loop, for every structure with two or more elements. Each symbol must have one role, integers must be below 2^31, and names of the clausifier must not be used; false otherwise (two false proofs shown: p(4294967297) proves p(1); f=g with p(f(a)) proves p(g(a))). Several conjectures count as their disjunction and free variables of a conjecture are read existentially. Missing: structures with one element, evaluation of computable symbols, the lexer and grammar."
  },
  {
   "property": "C41",
   "status": "proved",
   "theorems": [
    "Gkc.Props.C41_consequence_means_contradictory",
    "Gkc.Props.C41_consequence_iff_contradictory",
    "Gkc.Props.C41_problem_accepted"
   ],
   "note": "All passes of the clausifier and the building of clauses, in both directions. Outside the conditions see C27 (third argument lost, quoted name rejected), C28, C29 and C40."
  },
  {
   "property": "C42",
   "status": "partial",
   "theorems": [
    "Gkc.Props.C42_objects",
    "Gkc.Props.C42_alloc",
    "Gkc.Props.C42_free_partial",
    "Gkc.Props.C42_free_marked",
    "Gkc.Props.C42_free_refused",
    "Gkc.Props.C42_free_reads_outside"
   ],
   "note": "For requests below 2^37 words. Everything but freeing holds for all runs. Freeing an object whose head does not carry the mark 'left neighbour is free' succeeds and gives the space back; an object with the mark is refused with -4 (an offset is compared in place of a head) or memory outside of objects is read, both shown by runs. Contents of one data area of wg_alloc_gints; the fixed-length areas are not in the model."
  },
  {
   "property": "C43",
   "status": "partial",
   "theorems": [
    "Gkc.Props.C43_raw_records",
    "Gkc.Props.C43_data_records",
    "Gkc.Props.C43_create",
    "Gkc.Props.C43_delete_partial",
    "Gkc.Props.C43_deleted_still_given"
   ],
   "note": "The listing is exact for all runs of the allocator. Deleting is right for records without the mark of C42; false otherwise: wg_delete_record does not look at the result of wg_free_object, returns 0, and the record is still given (run shown). Fields that need freeing and indexes are not in the model."
  },
  {
   "property": "C44",
   "status": "partial",
   "theorems": [
    "Gkc.Props.C44_exclusion_partial",
    "Gkc.Props.C44_queue_lock",
    "Gkc.Props.C44_two_writers"
   ],
   "note": "Holds for all runs in which no process leaves FUTEX_WAIT while its field waiting is still set, other than by the time limit. False otherwise: the code does not look at the field again after FUTEX_WAIT; a signal, or a late FUTEX_WAKE for a node that was freed and is used again, gives two processes the write lock (run of three processes without signals proved). Memory is sequentially consistent, locks are given back by those who have them."
  },
  {
   "property": "C45",
   "status": "partial",
   "theorems": [
    "Gkc.Props.C45_order_partial",
    "Gkc.Props.C45_first_served_partial",
    "Gkc.Props.C45_stall"
   ],
   "note": "Order holds for the runs of C44. The first request always has the lock unless a process gives up just when the lock was given to it; then nobody passes the lock on: all processes that wait or come later sleep until their time is over although the lock is free (run proved)."
  },
  {
   "property": "C46",
   "status": "partial",
   "theorems": [
    "Gkc.Props.C46_contradiction_sound",
    "Gkc.Props.C46_file_sound",
    "Gkc.Props.C46_file_format",
    "Gkc.Props.C46_ground_exact",
    "Gkc.Props.C46_instances_exact_partial",
    "Gkc.Props.C46_instance_lost",
    "Gkc.Props.C46_bucket_in_table",
    "Gkc.Props.C46_no_stale_read_partial",
    "Gkc.Props.C46_stale_read",
    "Gkc.Props.C46_solver_sound_partial",
    "Gkc.Props.C46_shared_files"
   ],
   "note": "Reported contradictions are right for all clauses, constants and hash functions, and the file is proper DIMACS. Exact for clauses without variables, and with variables when the constant does not occur in the clauses. False otherwise: wr_term_basehash normalises the constant's hash twice for a variable, p(X) and ~p(a) with the constant a are given different numbers. With a million atoms the value of an atom is read through the address prop_varvals had before it was moved. The file names are the same for all processes: a process can report a proof for the clauses of another one (proved for the interleaving)."
  },
  {
   "property": "C47",
   "status": "partial",
   "theorems": [
    "Gkc.Props.C47_instance_sound",
    "Gkc.Props.C47_instance_exact_partial",
    "Gkc.Props.C47_instance_too_special"
   ],
   "note": "The clauses follow from their parents, for all bindings and renamings left behind. They mean the same as the instance by the unifier if no variable was renamed before. False in general: variables renamed while the resolvent was built stay bound, but the counter starts again, so different variables are made equal: from p(f(X))|q(U) and -p(Z)|r(a) the clause p(f(V))|q(V) is made. The saturation loop of C33 includes these inferences."
  },
  {
   "property": "C48",
   "status": "partial",
   "theorems": [
    "Gkc.Props.C48_listing_partial",
    "Gkc.Props.C48_references",
    "Gkc.Props.C48_checkable",
    "Gkc.Props.C48_tptp_partial",
    "Gkc.Props.C48_position_lost",
    "Gkc.Props.C48_para_exchanged",
    "Gkc.Props.C48_cut_lost",
    "Gkc.Props.C48_input_read_past",
    "Gkc.Props.C48_tptp_propinst",
    "Gkc.Props.C48_extprop_alone"
   ],
   "note": "For all derivations with positions below 16, at most 98 cuts in a step, and no paramodulation into the given clause at different positions. False otherwise (shown by listings): positions are masked to 4 bits; paramodulation into the given clause shows the two positions exchanged; the 99th cut is missing; the TPTP format lists the term of a propositional instance as premise '0'; a result of the external solver has no premises. An input record has no field 5, and the word behind it is read: undefined if it looks like the head of an arithmetic instance."
  },
  {
   "property": "C49",
   "status": "partial",
   "theorems": [
    "Gkc.Props.C49_document_partial",
    "Gkc.Props.C49_proof_partial",
    "Gkc.Props.C49_one_value",
    "Gkc.Props.C49_digits",
    "Gkc.Props.C49_merge_not_json",
    "Gkc.Props.C49_inst_not_json",
    "Gkc.Props.C49_extprop_not_json",
    "Gkc.Props.C49_sum_not_json",
    "Gkc.Props.C49_backslash_not_json",
    "Gkc.Props.C49_name_not_json",
    "Gkc.Props.C49_integer_wrong"
   ],
   "note": "For all documents whose names have no backslash or control character, without arithmetic operators inside terms, and without the rules merge and inst at print level 10 (they are fine from level 11 on) and extprop. False otherwise, shown by documents: factoring and propositional instances lack a comma, a result of the external solver has a bracket too many, sums are unquoted words, backslashes and the names of input formulas are not escaped, integers are cut to 32 bits."
  },
  {
   "property": "C50",
   "status": "partial",
   "theorems": [
    "Gkc.Props.C50_answers_are_answers_partial",
    "Gkc.Props.C50_proof_without_answer_partial",
    "Gkc.Props.C50_answer_literals_positive",
    "Gkc.Props.C50_answers_listed_once",
    "Gkc.Props.C50_enough_answers",
    "Gkc.Props.C50_answer_vector",
    "Gkc.Props.C50_second_proof_undefined",
    "Gkc.Props.C50_order_counts_twice",
    "Gkc.Props.C50_negative_answer"
   ],
   "note": "From the question in the file to the reported clause, for all runs of the loop, under the conditions of C40, if $ans is not used in the problem; that the clausifier then keeps $ans positive is proved. False otherwise: the sign of $ans is not looked at, so -$ans(a) of a user is reported (run). With more than one answer asked for, a proof without answer and any other answer make wr_same_answers read at NULL; the same literals in another order count as a second answer. A picked rule clause of answer literals is registered as NULL by the code, so that answer is lost; the model has it as an answer."
  },
  {
   "property": "C51",
   "status": "proved",
   "theorems": [
    "Gkc.Props.C51_same_word_iff_same_name",
    "Gkc.Props.C51_word_decodes",
    "Gkc.Props.C51_again",
    "Gkc.Props.C51_uri_list",
    "Gkc.Props.C51_ids_differ",
    "Gkc.Props.C51_short_is_new",
    "Gkc.Props.C51_prefix_lost",
    "Gkc.Props.C51_uri_unlisted",
    "Gkc.Props.C51_ids_clash"
   ],
   "note": "For any allocators that give unused places or fail; languages, types and prefixes are C strings. Not so (with witnesses): a long prefix in the same place of the hash array as its name is lost from the chain, so the prefix can be in memory twice (no word given to the user is affected); a URI whose list cell could not be allocated is found the next time but is never in the list; the numbers of names are unique in one database only, a knowledge base and the database it is attached to use the same numbers. Not in the model: freeing strings, NULL in the place of a string."
  },
  {
   "property": "C52",
   "status": "partial",
   "theorems": [
    "Gkc.Props.C52_compare_right_partial",
    "Gkc.Props.C52_compare_total_partial",
    "Gkc.Props.C52_nan_both_less",
    "Gkc.Props.C52_language_ignored"
   ],
   "note": "For databases without doubles that are not numbers, where immediate values and records are determined by their words and the fields of records are values. Missing, because it is false: with NaN each of two words is less than the other (C52_nan_both_less). Strings that differ in language only are the same (C52_language_ignored), a missing prefix is the same as an empty one. Doubles are compared through their bits (the order of the bits is proved to be the order of the numbers), fixed point numbers through their ten-thousandths."
  },
  {
   "property": "C53",
   "status": "partial",
   "theorems": [
    "Gkc.Props.TT.C53_index_right_partial",
    "Gkc.Props.TT.C53_index_total_partial",
    "Gkc.Props.TT.C53_depth",
    "Gkc.Props.TT.C53_chain",
    "Gkc.Props.TT.C53_no_memory",
    "Gkc.Props.TT.C53_create_index",
    "Gkc.Props.TT.C53_database",
    "Gkc.Props.TT.C53_row_lost"
   ],
   "note": "For all orders (C53_database: WG_COMPARE of a database as in C52 is one). Missing, because it is false: an addition that fails for want of memory may lose another row (C53_row_lost; C53_no_memory says exactly what may happen). Nodes are a tree with names for the chain; that the predecessor of a node in the chain is the rightmost node of its left subtree, as the code assumes, is C53_chain. Heights are numbers, in the code unsigned char; by C53_depth they stay far below 256. Index templates and the hooks that call the index are not part of this model."
  },
  {
   "property": "C54",
   "status": "partial",
   "theorems": [
    "Gkc.Props.Qu.C54_query_partial",
    "Gkc.Props.Qu.C54_find_record_partial",
    "Gkc.Props.Qu.C54_clash_wrong",
    "Gkc.Props.Qu.C54_illegal_wrong",
    "Gkc.Props.Qu.C54_count_unset"
   ],
   "note": "For databases whose T-trees have the records they should have (by C53 for all sequences of additions and removals; that the hooks make them is not part of this) and conditions with values. Missing, because it is false: 'greater than v and less than v' on an indexed column can give all records greater than v (C54_clash_wrong); WG_ILLEGAL as a value is taken for no bound (C54_illegal_wrong); res_count is not set when the bounds are in the wrong order (C54_count_unset). An invalid condition number is ignored by wg_make_query, so it asks for the column only. Missing from the model: JSON queries, failing malloc, the reading of stored values from a query cursor after a change of the database."
  },
  {
   "property": "C55",
   "status": "partial",
   "theorems": [
    "Gkc.Props.Ih.C55_current_partial",
    "Gkc.Props.Ih.C55_hooks",
    "Gkc.Props.Ih.C55_field_hooks",
    "Gkc.Props.Ih.C55_record_not_indexed",
    "Gkc.Props.Ih.C55_record_not_indexed_wrong",
    "Gkc.Props.Ih.C55_template_twice",
    "Gkc.Props.Ih.C55_stale_key",
    "Gkc.Props.Ih.C55_dead_row",
    "Gkc.Props.Ih.C55_delete_fails",
    "Gkc.Props.Ih.C55_second_removal",
    "Gkc.Props.Ih.C55_stale_removal"
   ],
   "note": "True as long as no call does harm, and the first call that does harm leaves an index that is not current. Missing, because it is false in this build: wg_create_record and wg_set_new_field do not update indexes (C55_record_not_indexed, C55_stale_key, C55_dead_row), wg_create_array and the like put a record twice in an index with a template (C55_template_twice), and a record in such an index cannot be deleted if its key lies between others (C55_delete_fails, C55_second_removal). The hooks for a change of a field are right but not called (C55_field_hooks). Trees are given by their rows (C53); hash indexes, exhausted memory and records that are referred to are not in the model."
  },
  {
   "property": "C56",
   "status": "partial",
   "theorems": [
    "Gkc.Props.Js.C56_meaning_partial",
    "Gkc.Props.Js.C56_empty",
    "Gkc.Props.Js.C56_rest_dropped",
    "Gkc.Props.Js.C56_conjunct_dropped",
    "Gkc.Props.Js.C56_negated_capital",
    "Gkc.Props.Js.C56_proposition",
    "Gkc.Props.Js.C56_tilde",
    "Gkc.Props.Js.C56_two_signs",
    "Gkc.Props.Js.C56_null",
    "Gkc.Props.Js.C56_empty_string",
    "Gkc.Props.Js.C56_names",
    "Gkc.Props.Js.C56_three",
    "Gkc.Props.Js.C56_word_argument"
   ],
   "note": "Proved for the whole notation except two things that are false: a negated predicate whose name has to be quoted becomes another symbol than the predicate itself (C56_negated_capital), and an atom without arguments is not the proposition of that name (C56_proposition). Names that are words of the language are left out (C56_names, C56_word_argument, C56_empty_string), and so are lists the documentation does not describe (C56_empty, C56_rest_dropped, C56_tilde, C56_two_signs, C56_three). JSON objects, @context and null (C56_null) are not in the specification."
  },
  {
   "property": "C57",
   "status": "partial",
   "theorems": [
    "Gkc.Props.Js.C57_proof_means_consequence_partial",
    "Gkc.Props.Js.C57_answers_are_answers_partial",
    "Gkc.Props.Js.C57_every_problem_is_read"
   ],
   "note": "C56, C36-C40 and C50 put together: structures are those of the documentation, not those of the symbols. Each name is to be used in one role and is a variable everywhere in a statement or nowhere; $ans, $pr, $sk1.. and $df1.. are not used. Missing: numbers other than natural numbers below 2^31, structures with one element, computable symbols, and the keys of the objects around the formulas (the role of a statement is given)."
  },
  {
   "property": "C58",
   "status": "partial",
   "theorems": [
    "Gkc.Props.Calc.C58_proof_means_consequence_partial",
    "Gkc.Props.Calc.C58_answers_are_answers_partial",
    "Gkc.Props.Calc.C58_proof_without_answer_partial",
    "Gkc.Props.Calc.C58_ordinary_arithmetic",
    "Gkc.Props.Calc.C58_structure_exists",
    "Gkc.Props.Calc.C58_numbers_exist",
    "Gkc.Props.Calc.C58_skolem_name_false_proof"
   ],
   "note": "C40 and C50 without the assumption that nothing is computed: the run uses the evaluation of the prover (C31). Computes says what is to be true in a structure; Numbers says it in terms of ordinary arithmetic (exact integers, rounded doubles, rounding to integers, lengths, lists) and implies it; C58_numbers_exist gives one structure for all of its symbols. A run with the evaluation is a run with one that only touches terms that keep to the roles (EvalRun). Missing: $substr, $substrat, $is_list, $is_map, $is_atom, $is_distinct, symbols used in two roles. False with $substr: exists X: -$substr(\"sk\",X) is refuted because of the name of the Skolem constant. $lesseq(1,1.0) computes false, so $lesseq and $greatereq are in Computes but not in Numbers. Structures have to have the doubles, because the model lets variables be bound to any number (arithmetic instances)."
  },
  {
   "property": "C59",
   "status": "partial",
   "theorems": [
    "Gkc.Props.Dp.C59_restored_partial",
    "Gkc.Props.Dp.C59_accepted",
    "Gkc.Props.Dp.C59_damage_refused",
    "Gkc.Props.Dp.C59_length_refused",
    "Gkc.Props.Dp.C59_reader_spoils_dump",
    "Gkc.Props.Dp.C59_writer_spoils_dump",
    "Gkc.Props.Dp.C59_old_dump_lost",
    "Gkc.Props.Dp.C59_not_crc32",
    "Gkc.Props.Dp.C59_table",
    "Gkc.Props.Dp.C59_import_succeeds",
    "Gkc.Props.Dp.C59_refused_untouched"
   ],
   "note": "The round trip for all databases when nothing changes meanwhile. Missing, because it is false: a reader that comes between computing the checksum and writing (the queue lock is in the segment), or a writer that takes memory between reading the size and getting the lock, leaves a file that is refused although wg_dump returned 0. Four changed bytes are found outside of the checksum or in it, not across its border. Pointers of the old process in the header are restored as bytes. Writing to the file is taken not to fail."
  },
  {
   "property": "C60",
   "status": "partial",
   "theorems": [
    "Gkc.Props.Cv.C60_formula_partial",
    "Gkc.Props.Cv.C60_file_partial",
    "Gkc.Props.Cv.C60_empty",
    "Gkc.Props.Cv.C60_capture",
    "Gkc.Props.Cv.C60_capture_differs",
    "Gkc.Props.Cv.C60_object",
    "Gkc.Props.Cv.C60_variable",
    "Gkc.Props.Cv.C60_true",
    "Gkc.Props.Cv.C60_backslash",
    "Gkc.Props.Cv.C60_backslash_not_json",
    "Gkc.Props.Cv.C60_zero",
    "Gkc.Props.Cv.C60_list",
    "Gkc.Props.Cv.C60_leftover",
    "Gkc.Props.Cv.C60_include_last",
    "Gkc.Props.Cv.C60_include_empty",
    "Gkc.Props.Cv.C60_roles",
    "Gkc.Props.Cv.C60_buffer",
    "Gkc.Props.Cv.C60_buffer_kept"
   ],
   "note": "For formulas whose names are no words of JSON-LD-LOGIC and have no backslash; negated atoms need plain names (C56). Missing, because it is false: quoted constants with the name of a quantified variable, names with the prefixes of objects and variables, names beginning with $true, backslashes, numbers with zeros in front, lists, formulas that are just a proposition, an include at the end. The objects are read by C56 from the value under @logic; the reading of the objects themselves, numbers with a fraction and the lexer are not modelled."
  },
  {
   "property": "C61",
   "status": "proved",
   "theorems": [
    "Gkc.Props.C61_finished_means_satisfiable",
    "Gkc.Props.C61_proof_means_unsatisfiable",
    "Gkc.Props.C61_answers_agree",
    "Gkc.Props.C61_search_settles_conjecture",
    "Gkc.Props.C61_size_limit_hides_proof"
   ],
   "note": "For problems without equations, arithmetic and answer literals, with any choice of literals that is a Selection (all literals, or those of C63), and clauses with atoms of more than 2147 symbols before the first variable thrown away by the size limit (their prefix hashes leave the range of int, C10). The condition that no clause was thrown away is needed: with a size limit the same end of the search is reached for a contradiction, and the program does not remember the loss."
  },
  {
   "property": "C62",
   "status": "proved",
   "theorems": [
    "Gkc.Props.C62_fair_search_finds_proof",
    "Gkc.Props.C62_oldest_again_and_again"
   ],
   "note": "Same problems and strategy as C61. The picking of clauses is a parameter that may differ from round to round; C23_fair shows that the picking queues of the program pick every pushed clause. Memory and the limits on size and weight are hypotheses: without them C61_size_limit_hides_proof is a counterexample."
  },
  {
   "property": "C63",
   "status": "partial",
   "theorems": [
    "Gkc.Props.C63_choice_loses_nothing_partial",
    "Gkc.Props.C63_finished_means_satisfiable_partial",
    "Gkc.Props.C63_oldest_again_and_again_partial",
    "Gkc.Props.C63_knuthbendix_chooses_largest",
    "Gkc.Props.C63_preferred_sign",
    "Gkc.Props.C63_symbols_have_one_ranking",
    "Gkc.Props.C63_one_ranking_iff",
    "Gkc.Props.C63_hardness_loses_proof",
    "Gkc.Props.C63_number_between_symbols_loses_proof"
   ],
   "note": "Same problems as C61. Missing, because it is false: hardness_pref without one of the other three (four clauses whose only resolvents are tautologies), and the order when the word of a number is between those of two symbols: symbols are compared with each other by number of creation, with a number by word where the larger one is smaller, so three constants can compare in a circle, and a clause can then have no chosen literal. Where the comparison agrees with one ranking of the constants that occur in the problem all other combinations are covered; C63_one_ranking_iff shows that this is exactly when no such number occurs in the problem, so it holds for every problem without numbers. Not covered: hyperresolution, query focus, answer literals."
  },
  {
   "property": "C64",
   "status": "partial",
   "theorems": [
    "Gkc.Props.C64_filter_ends",
    "Gkc.Props.C64_kept_are_input",
    "Gkc.Props.C64_proof_is_right",
    "Gkc.Props.C64_goals_kept",
    "Gkc.Props.C64_outside_dropped",
    "Gkc.Props.C64_kept_relevant",
    "Gkc.Props.C64_kept_iff",
    "Gkc.Props.C64_kept_few",
    "Gkc.Props.C64_without_goals",
    "Gkc.Props.C64_no_common_predicate",
    "Gkc.Props.C64_connected_lose_nothing_partial",
    "Gkc.Props.C64_rare_symbols_lose_nothing_partial",
    "Gkc.Props.C64_frequent_symbol_loses_proof",
    "Gkc.Props.C64_trigger_limit_loses_proof"
   ],
   "note": "Termination, soundness, the goals and the exact set of clauses used are for all inputs (the exact set if there are fewer clauses than can be triggered, otherwise one inclusion and a bound). Missing, because it is false: that no proof is lost. A symbol in five clauses does not trigger a fact with a rarer symbol, and the strategies other than 1 trigger only ten clauses in problems of fewer than 110; both with witnesses. Proofs are kept where the symbols near the goals trigger all their clauses, for example where every symbol is rare. Not covered: an attached knowledge base, and equality in the last theorems."
  },
  {
   "property": "C65",
   "status": "partial",
   "theorems": [
    "Gkc.Props.Fd.C65_calls_do_what_they_should_partial",
    "Gkc.Props.Fd.C65_fields_readable_partial",
    "Gkc.Props.Fd.C65_record_kept_partial",
    "Gkc.Props.Fd.C65_set_field_does_nothing",
    "Gkc.Props.Fd.C65_delete_never_refused",
    "Gkc.Props.Fd.C65_delete_of_referring_fails",
    "Gkc.Props.Fd.C65_no_parents",
    "Gkc.Props.Fd.C65_delete_destroys_other_record",
    "Gkc.Props.Fd.C65_free_destroys_string_in_use",
    "Gkc.Props.Fd.C65_delete_leaves_dangling_reference",
    "Gkc.Props.Fd.C65_without_quick_calls_do_what_they_should",
    "Gkc.Props.Fd.C65_without_quick_fields_readable",
    "Gkc.Props.Fd.C65_without_quick_record_kept",
    "Gkc.Props.Fd.C65_without_quick_parents_partial",
    "Gkc.Props.Fd.C65_without_quick_parents_endless"
   ],
   "note": "Without QUICK_REASONER all of it except the loop over the parents is proved for all calls that keep to the rules (values are there, a value with an object of its own is stored once). The program is compiled with QUICK_REASONER; then it is proved only for calls that avoid what is left out, and false otherwise: wg_set_field stores nothing and returns 0; counts of references stay 0, so deleting a record or freeing a value frees a string that other records have, and they then show whatever is stored in its place; a record others refer to is deleted; a record that refers to a record cannot be deleted. The loop over the parents does not end if a record refers to another twice. Not in the model: indexes (C55), failing allocation, the prefix of a string as an object of its own, an attached knowledge base."
  },
  {
   "property": "C66",
   "status": "partial",
   "theorems": [
    "Gkc.Props.Ps.C66_file_partial",
    "Gkc.Props.Ps.C66_left_partial",
    "Gkc.Props.Ps.C66_size",
    "Gkc.Props.Ps.C66_unambiguous",
    "Gkc.Props.Ps.C66_no_blanks",
    "Gkc.Props.Ps.C66_missing_operand",
    "Gkc.Props.Ps.C66_arithmetic",
    "Gkc.Props.Ps.C66_unclosed",
    "Gkc.Props.Ps.C66_unknown_characters",
    "Gkc.Props.Ps.C66_backslash",
    "Gkc.Props.Ps.C66_long"
   ],
   "note": "The scanner and the parser are modelled by their tables. Proved for all files of formulas with names, numbers, distinct objects, equations, all connectives and quantifiers, infix arithmetic in parentheses; statements with fewer than 9997 tokens. Missing, because it is false: names followed by < > : + - * / without a blank, backslashes in quotes, names in quotes of 1024 bytes or more, arithmetic without parentheses; and wrong texts are often accepted (missing operand, unclosed quote, unknown characters). Not covered: ?x variables, floating point numbers, dates, clauses with brackets, annotations, include."
  },
  {
   "property": "C67",
   "status": "partial",
   "theorems": [
    "Gkc.Props.Pb.C67_proof_means_consequence_partial",
    "Gkc.Props.Pb.C67_every_statement_is_read",
    "Gkc.Props.Pb.C67_consequence_means_contradictory",
    "Gkc.Props.Pb.C67_search_settles_the_file",
    "Gkc.Props.Pb.C67_proof_is_found",
    "Gkc.Props.Pb.C67_source_hides_the_formula",
    "Gkc.Props.Pb.C67_source_example",
    "Gkc.Props.Pb.C67_cnf_role_ignored",
    "Gkc.Props.Pb.C67_quantifier_in_clause",
    "Gkc.Props.Pb.C67_quotes_make_another_name"
   ],
   "note": "From the text to the answer, over C66, C40 and C41. Proved for files of fof statements, cnf statements that are not conjectures, and formulas alone, with each name in one role, integers below 2^31, no computable symbols evaluated, in structures with at least two elements; several conjectures count as their disjunction, and free variables of a conjecture are existential. The way back needs every name always or never in quotes. Missing, because it is false: statements with a source after the formula become an atom fof(...) and a conjecture is then lost; the role of cnf statements is ignored; 'a' and a are different constants. For problems whose clauses are ordinary (C61: no equations, no answers) a search that ends settles whether a conjecture follows, and a fair search finds a proof if one does. Files with include: C68."
  },
  {
   "property": "C68",
   "status": "partial",
   "theorems": [
    "Gkc.Props.Inc.C68_everything_is_read",
    "Gkc.Props.Inc.C68_no_error_is_lost",
    "Gkc.Props.Inc.C68_proof_means_consequence_partial",
    "Gkc.Props.Inc.C68_search_settles_the_problem",
    "Gkc.Props.Inc.C68_proof_is_found",
    "Gkc.Props.Inc.C68_second_folder_is_lost",
    "Gkc.Props.Inc.C68_missing_file_is_no_error",
    "Gkc.Props.Inc.C68_only_includes_refused",
    "Gkc.Props.Inc.C68_formula_in_included_file",
    "Gkc.Props.Inc.C68_file_in_itself"
   ],
   "note": "Proved for all problems whose include names lead to the same file from each of the folders in which files of the problem lie (all files in one folder, or all of them in the folder for axioms), under the conditions of C67 on the statements. Missing, because it is false: after a file in another folder names are looked for from there, so that axioms are silently lost; a missing file is no error; a problem with nothing but include statements is refused; formulas alone in included files are not clausified; a file that includes itself is read without end. Not covered: include with a list of names (read as a formula, C67)."
  },
  {
   "property": "C69",
   "status": "partial",
   "theorems": [
    "Gkc.Props.Inc.C69_status_partial",
    "Gkc.Props.Inc.C69_clauses",
    "Gkc.Props.Inc.C69_no_conjecture",
    "Gkc.Props.Inc.C69_include_forgets"
   ],
   "note": "Proved for problems in one file that have a conjecture or no fof statement, and for problems in any number of files with clauses only. Missing, because it is false: fof axioms that contradict each other give Theorem without any conjecture, and a file without fof statements that is included before the conjecture gives Unsatisfiable for a problem with a conjecture."
  },
  {
   "property": "C70",
   "status": "partial",
   "theorems": [
    "Gkc.Props.Hx.C70_exact_partial",
    "Gkc.Props.Hx.C70_once_partial",
    "Gkc.Props.Hx.C70_none_missed",
    "Gkc.Props.Hx.C70_hashable",
    "Gkc.Props.Hx.C70_large_integers",
    "Gkc.Props.Hx.C70_language",
    "Gkc.Props.Hx.C70_uri_prefix",
    "Gkc.Props.Hx.C70_two_zeros",
    "Gkc.Props.Hx.C70_blob"
   ],
   "note": "Proved for all sequences of additions and removals and all values with integers in the range of a C int, strings without a language, and URIs and XML literals that do not begin with a control character; that no row with the same values is missed holds for all values that can be hashed. Missing, because it is false: integers are cut to 32 bits, the language of a string is left out, and the prefix of a URI can be confused with a URI in front of it, so that rows with other values are given. The linked lists of the table are modelled as lists."
  },
  {
   "property": "C71",
   "status": "partial",
   "theorems": [
    "Gkc.Props.Jq.C71_exact_partial",
    "Gkc.Props.Jq.C71_indexes_agree",
    "Gkc.Props.Jq.C71_unique_partial",
    "Gkc.Props.Jq.C71_intersect_partial",
    "Gkc.Props.Jq.C71_deep",
    "Gkc.Props.Jq.C71_deep_pair",
    "Gkc.Props.Jq.C71_outside",
    "Gkc.Props.Jq.C71_shared",
    "Gkc.Props.Jq.C71_too_few_places",
    "Gkc.Props.Jq.C71_too_large"
   ],
   "note": "Proved for all databases in which documents share no records, are at most six references deep and contain every record with one of the pairs, with any indexes that give what a comparison would, and sets of up to 201326611 documents. Missing, because it is false: a deeper document or a matching record outside of all documents makes the whole query fail, of documents that share a record only the first one is found, and larger sets do not fit in the key table. The pages of a result set are modelled as a list."
  },
  {
   "property": "C72",
   "status": "partial",
   "theorems": [
    "Gkc.Props.Eh.C72_exact_partial",
    "Gkc.Props.Eh.C72_added",
    "Gkc.Props.Eh.C72_translate_partial",
    "Gkc.Props.Eh.C72_succeeds_partial",
    "Gkc.Props.Eh.C72_few",
    "Gkc.Props.Eh.C72_old_value",
    "Gkc.Props.Eh.C72_value_changes",
    "Gkc.Props.Eh.C72_eight_times",
    "Gkc.Props.Eh.C72_capacity"
   ],
   "note": "Proved for all sequences of different keys: what was added is found and nothing else, and every addition succeeds unless eight keys agree in the 22 low bits of the hash. Missing, because it is false: a key that is added again gives the old value or, after a bucket was split, the new one; the eighth addition of a key fails and a ninth writes past the end of the bucket; and there is no room for more than 29360128 keys. The table is always compiled, the replay of the log (translate_offset) only with USE_DBLOG, which config-gcc.h leaves undefined."
  },
  {
   "property": "C73",
   "status": "partial",
   "theorems": [
    "Gkc.Props.Gd.C73_runs_partial",
    "Gkc.Props.Gd.C73_shared_out_partial",
    "Gkc.Props.Gd.C73_one_process_partial",
    "Gkc.Props.Gd.C73_no_runs",
    "Gkc.Props.Gd.C73_ten_runs",
    "Gkc.Props.Gd.C73_ten_runs_forever",
    "Gkc.Props.Gd.C73_one_too_many",
    "Gkc.Props.Gd.C73_sequence",
    "Gkc.Props.Gd.C73_values"
   ],
   "note": "Proved for all strategies whose runs are objects and of which there are not exactly ten, for any number of processes: the runs of each process, their order, the stop at a proof, and the settings of each search. Missing, because it is false: with exactly ten runs no run is made (10 is also the sign for a sequence) and one process reports the end of the search without any search, while several processes search with the outer settings without an end; and each process that does not have the last run makes one search more, with the outer settings only. Not covered: the end of the time for all runs, and what sequences do in detail."
  },
  {
   "property": "C74",
   "status": "partial",
   "theorems": [
    "Gkc.Props.Ag.C74_fits_partial",
    "Gkc.Props.Ag.C74_runs_partial",
    "Gkc.Props.Ag.C74_all_made_partial",
    "Gkc.Props.Ag.C74_longer",
    "Gkc.Props.Ag.C74_huge",
    "Gkc.Props.Ag.C74_special_fits",
    "Gkc.Props.Ag.C74_special_runs",
    "Gkc.Props.Ag.C74_special_none"
   ],
   "note": "Proved for all problems with fewer than 100000000 clauses, in the build for native systems, with or without the special parameter for large theories: at most 50000 bytes, 43 to 429 runs. Of each line of the text the model has the number of characters (tools/auto_table.py makes the tables from the source). Missing, because it is false: with 100000000 clauses or more no run is written, unless all clauses are equations. Not covered: that the text is read back as written."
  },
  {
   "property": "C75",
   "status": "partial",
   "theorems": [
    "Gkc.Props.Is.C75_right_partial",
    "Gkc.Props.Is.C75_equality_partial",
    "Gkc.Props.Is.C75_unit_equality_partial",
    "Gkc.Props.Is.C75_parameters_partial",
    "Gkc.Props.Is.C75_measures",
    "Gkc.Props.Is.C75_defined",
    "Gkc.Props.Is.C75_no_clauses",
    "Gkc.Props.Is.C75_too_long"
   ],
   "note": "Proved for all lists of clauses, with and without a shared database, unless both are empty: twenty-seven numbers are right, and what follows for equality. Missing, because it is false: with an empty file and an empty shared database the numbers of clauses are divided by zero (C75_defined: this is the only case), and the least length, depth, size or number of variables is not found if all clauses have more than 100000. The size, the depth and the number of variables of a clause are those of its terms (C75_measures). The counters and the stack of variables are unbounded in the model. The averages, which nothing uses, and the counts of chains and symbols (C76) are left out."
  },
  {
   "property": "C76",
   "status": "partial",
   "theorems": [
    "Gkc.Props.Oc.C76_counted_partial",
    "Gkc.Props.Oc.C76_compared_partial",
    "Gkc.Props.Oc.C76_shared",
    "Gkc.Props.Oc.C76_limit"
   ],
   "note": "Proved for all problems without a shared database: the numbers are those of the occurrences, at most 65536 positive and 8191 negative ones. Missing, because it is false: above these limits symbols are not told apart, and with a shared database the occurrences in the file are not counted at all. Integers of the database are modelled as natural numbers; all that arise are below 2^33."
  }
 ]
}