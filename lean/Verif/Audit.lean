import Verif.Alloc
import Verif.AllocInv
import Verif.AllocLemmas
import Verif.AllocRun
import Verif.Answers
import Verif.Arith
import Verif.AutoGuide
import Verif.Build
import Verif.BuildLemmas
import Verif.Calendar
import Verif.Clausal
import Verif.ClauseMetaLemmas
import Verif.Clausify
import Verif.Compare
import Verif.CompareLemmas
import Verif.Complete
import Verif.Convert
import Verif.ConvertLemmas
import Verif.ConvertSpec
import Verif.Cuts
import Verif.Derive
import Verif.DeriveLemmas
import Verif.DistEnds
import Verif.DistLemmas
import Verif.Distribute
import Verif.DoubleStore
import Verif.Dump
import Verif.DumpLemmas
import Verif.Encode
import Verif.ExtHash
import Verif.ExtHashLemmas
import Verif.Fields
import Verif.FieldsLemmas
import Verif.Frm
import Verif.FrmLemmas
import Verif.Guide
import Verif.HashIndex
import Verif.HashIndexLemmas
import Verif.HashKeyLemmas
import Verif.HistLemmas
import Verif.HistSpec
import Verif.History
import Verif.Include
import Verif.Index
import Verif.IndexHooks
import Verif.InputStats
import Verif.InstGen
import Verif.JsLogic
import Verif.JsLogicLemmas
import Verif.JsLogicRun
import Verif.JsLogicSpec
import Verif.Json
import Verif.JsonLemmas
import Verif.JsonQuery
import Verif.JsonQueryLemmas
import Verif.JsonRead
import Verif.JsonSpec
import Verif.KeySetLemmas
import Verif.KeySizes
import Verif.Lock
import Verif.LockInv
import Verif.LockOps
import Verif.Loop
import Verif.LoopFair
import Verif.LoopInv
import Verif.LoopLemmas
import Verif.LoopSound
import Verif.Meta
import Verif.MetaLemmas
import Verif.Order
import Verif.OrderLemmas
import Verif.ParaIndex
import Verif.ParaLemmas
import Verif.Parse
import Verif.ParseLemmas
import Verif.ParseSpec
import Verif.Problem
import Verif.PropInst
import Verif.PropInstLemmas
import Verif.PropSpec
import Verif.Props.Alloc
import Verif.Props.AnsPos
import Verif.Props.Answers
import Verif.Props.Arith
import Verif.Props.ArithData
import Verif.Props.ArithDiv
import Verif.Props.ArithSem
import Verif.Props.AutoGuide
import Verif.Props.Build
import Verif.Props.Calc
import Verif.Props.CalcCases
import Verif.Props.Calendar
import Verif.Props.Clausal
import Verif.Props.ClausalBack
import Verif.Props.ClausalRoles
import Verif.Props.ClauseMeta
import Verif.Props.Compare
import Verif.Props.Complete
import Verif.Props.Convert
import Verif.Props.Cuts
import Verif.Props.Derive
import Verif.Props.Distribute
import Verif.Props.DoubleStore
import Verif.Props.Dump
import Verif.Props.Encode
import Verif.Props.EvalRun
import Verif.Props.ExtHash
import Verif.Props.Fair
import Verif.Props.Fields
import Verif.Props.Guide
import Verif.Props.HashIndex
import Verif.Props.History
import Verif.Props.Include
import Verif.Props.Index
import Verif.Props.IndexHooks
import Verif.Props.InputStats
import Verif.Props.InstGen
import Verif.Props.JsAdm
import Verif.Props.JsLogic
import Verif.Props.JsProblem
import Verif.Props.Json
import Verif.Props.JsonQuery
import Verif.Props.Lock
import Verif.Props.Miniscope
import Verif.Props.Negpush
import Verif.Props.Order
import Verif.Props.ParaIndex
import Verif.Props.Parse
import Verif.Props.Problem
import Verif.Props.ProblemSearch
import Verif.Props.PropInst
import Verif.Props.Pure
import Verif.Props.Query
import Verif.Props.Queue
import Verif.Props.Records
import Verif.Props.Rewrite
import Verif.Props.Roles
import Verif.Props.Saturate
import Verif.Props.Sine
import Verif.Props.Skolem
import Verif.Props.StrHash
import Verif.Props.Strategy
import Verif.Props.StrongDup
import Verif.Props.Subsume
import Verif.Props.SymbolCount
import Verif.Props.TTree
import Verif.Props.Unify
import Verif.Props.Vec
import Verif.Query
import Verif.QueryBounds
import Verif.QueryLemmas
import Verif.Queue
import Verif.Records
import Verif.Rewrite
import Verif.RewriteLemmas
import Verif.Saturate
import Verif.Scan
import Verif.ScanLemmas
import Verif.Sem
import Verif.Sine
import Verif.SineLemmas
import Verif.SkolemLemmas
import Verif.StrHash
import Verif.Strategy
import Verif.StrategyLemmas
import Verif.StrongDup
import Verif.Subsume
import Verif.SubsumeLemmas
import Verif.SymbolCount
import Verif.TTree
import Verif.TTreeLemmas
import Verif.TTreeOps
import Verif.TTreeRemove
import Verif.Term
import Verif.Unify
import Verif.UnifyLemmas
import Verif.Vec
/- Generated by tools/manifest.py: axioms of every theorem named in MANIFEST.json. -/

#print axioms Gkc.Encode.C01_int_roundtrip
#print axioms Gkc.Encode.C01_int_history
#print axioms Gkc.Encode.C01_double_roundtrip
#print axioms Gkc.Encode.C01_record_roundtrip
#print axioms Gkc.Encode.C01_local_handle_fails
#print axioms Gkc.Encode.C02_type_recovered
#print axioms Gkc.Encode.C02_no_confusion
#print axioms Gkc.Encode.C02_never_illegal
#print axioms Gkc.Encode.C03_immediate_roundtrip_partial
#print axioms Gkc.Encode.C03_var_roundtrip_iff
#print axioms Gkc.Encode.C03_date_not_rejected
#print axioms Gkc.Encode.C03_others_not_rejected
#print axioms Gkc.Encode.C03_time_shift_ub
#print axioms Gkc.Calendar.C04_date_roundtrip
#print axioms Gkc.Calendar.C04_every_number_is_a_date
#print axioms Gkc.Calendar.C04_counts_days
#print axioms Gkc.Calendar.C04_accepts_invalid_day
#print axioms Gkc.Calendar.C04_year_zero_wraps
#print axioms Gkc.Calendar.C05_time_roundtrip
#print axioms Gkc.Calendar.C05_time_monotone
#print axioms Gkc.Calendar.C05_every_number_is_a_time
#print axioms Gkc.Calendar.C05_accepts_invalid_time
#print axioms Gkc.Props.C06_equal_term_decides
#print axioms Gkc.Props.C06_equal_mod_banks
#print axioms Gkc.Props.C07_match_sound
#print axioms Gkc.Props.C07_match_complete
#print axioms Gkc.Props.C07_match_answer_right
#print axioms Gkc.Props.C07_match_decides_partial
#print axioms Gkc.Props.C07_match_number_against_record
#print axioms Gkc.Props.C08_unify_terminates
#print axioms Gkc.Props.C08_unify_terminates_from
#print axioms Gkc.Props.C08_unify_acyclic
#print axioms Gkc.Props.C08_unify_deterministic
#print axioms Gkc.Props.C08_unify_mgu
#print axioms Gkc.Props.C08_unify_fails_only_without_unifier
#print axioms Gkc.Props.C08_unify_incremental
#print axioms Gkc.Props.C09_clear_restores
#print axioms Gkc.Props.C09_clear_slice_restores
#print axioms Gkc.Props.C09_stack_bounded
#print axioms Gkc.Props.C10_quick_check_admissible_partial
#print axioms Gkc.Props.C10_flags
#print axioms Gkc.Props.C10_prefix_hash_overflow
#print axioms Gkc.Props.C11_subsume_exact_partial
#print axioms Gkc.Props.C11_subsume_yes_implies
#print axioms Gkc.Props.C12_clause_check_admissible_partial
#print axioms Gkc.Props.C12_ground_general_rejected
#print axioms Gkc.Props.C12_fact_never_subsumed
#print axioms Gkc.Props.C12_count_255_rejected
#print axioms Gkc.Props.C13_resolution_sound
#print axioms Gkc.Props.C13_resolvent_exact
#print axioms Gkc.Props.C13_shared_atom_unsound
#print axioms Gkc.Props.C14_factoring_sound
#print axioms Gkc.Props.C14_equality_reflexivity_sound
#print axioms Gkc.Props.C15_para_from_sound
#print axioms Gkc.Props.C15_replaces_one_position
#print axioms Gkc.Props.C15_every_position_offered
#print axioms Gkc.Props.C15_positions_distinct
#print axioms Gkc.Props.C15_para_into_sound_partial
#print axioms Gkc.Props.C15_para_into_literal_256_unsound
#print axioms Gkc.Props.C16_resolvent_equivalent
#print axioms Gkc.Props.C16_dropped_resolvent_valid
#print axioms Gkc.Props.C16_dropped_only_for_many_variables
#print axioms Gkc.Props.C16_paramodulant_equivalent
#print axioms Gkc.Props.C16_dropped_paramodulant_valid
#print axioms Gkc.Props.C16_factor_equivalent
#print axioms Gkc.Props.C16_tautology_check
#print axioms Gkc.Props.C16_tautology_check_valid
#print axioms Gkc.Props.C16_tautology_check_admits
#print axioms Gkc.Props.C17_equivalent_partial
#print axioms Gkc.Props.C17_removed_are_general
#print axioms Gkc.Props.C17_never_empties
#print axioms Gkc.Props.C17_defined_without_clash
#print axioms Gkc.Props.C17_constant_against_record
#print axioms Gkc.Props.C18_unit_cut_exact
#print axioms Gkc.Props.C18_unit_cut_sound
#print axioms Gkc.Props.C18_subsumed_implied
#print axioms Gkc.Props.C18_strong_cut_sound
#print axioms Gkc.Props.C18_strong_cut_complete
#print axioms Gkc.Props.C18_double_cut_sound
#print axioms Gkc.Props.C18_simplify_sound
#print axioms Gkc.Props.C18_simplify_fact_sound
#print axioms Gkc.Props.C18_derived_clause_sound
#print axioms Gkc.Props.C19_rewrite_sound_partial
#print axioms Gkc.Props.C19_rewrite_atom_sound_partial
#print axioms Gkc.Props.C19_literals_sound_partial
#print axioms Gkc.Props.C19_shared_symbol_unsound
#print axioms Gkc.Props.C19_shared_predicate_unsound
#print axioms Gkc.Props.C20_rewriting_terminates
#print axioms Gkc.Props.C20_no_infinite_rewriting
#print axioms Gkc.Props.C20_result_not_bigger
#print axioms Gkc.Props.C20_result_irreducible
#print axioms Gkc.Props.C21_never_both
#print axioms Gkc.Props.C21_irreflexive
#print axioms Gkc.Props.C21_transitive
#print axioms Gkc.Props.C21_stable
#print axioms Gkc.Props.C21_context
#print axioms Gkc.Props.C21_smaller_has_no_new_variables
#print axioms Gkc.Props.C21_no_infinite_descent
#print axioms Gkc.Props.C21_total_on_ground
#print axioms Gkc.Props.C21_many_variables_not_stable
#print axioms Gkc.Props.C22_priority_queue_refines
#print axioms Gkc.Props.C22_each_pushed_once
#print axioms Gkc.Props.C23_fair
#print axioms Gkc.Props.C23_empty_only_when_all_picked
#print axioms Gkc.Props.C23_never_stuck
#print axioms Gkc.Props.C23_picked_at_most_twice
#print axioms Gkc.Props.C23_picked_twice
#print axioms Gkc.Props.C24_index_complete_partial
#print axioms Gkc.Props.C24_index_sound
#print axioms Gkc.Props.C24_lookup_ends
#print axioms Gkc.Props.C24_some_literal_not_storable
#print axioms Gkc.Props.C24_some_literal_not_found
#print axioms Gkc.Props.C25_vector_keeps
#print axioms Gkc.Props.C25_cvec_refines
#print axioms Gkc.Props.C25_pushed_reads_back
#print axioms Gkc.Props.C25_termhash_refines
#print axioms Gkc.Props.C25_term_hash_range
#print axioms Gkc.Props.C26_negpush_equivalent
#print axioms Gkc.Props.C26_negpush_accepts
#print axioms Gkc.Props.C27_miniscope_equivalent_partial
#print axioms Gkc.Props.C27_miniscope_total
#print axioms Gkc.Props.C27_third_argument_lost
#print axioms Gkc.Props.C27_quoted_name_rejected
#print axioms Gkc.Props.C28_skolem_equisatisfiable_partial
#print axioms Gkc.Props.C28_skolem_names
#print axioms Gkc.Props.C28_skolem_accepts
#print axioms Gkc.Props.C28_user_skolem_name_unsound
#print axioms Gkc.Props.C29_distribute_equisatisfiable_partial
#print axioms Gkc.Props.C29_plain_distribution_equivalent
#print axioms Gkc.Props.C29_distribution_ends
#print axioms Gkc.Props.C29_flatten_equivalent
#print axioms Gkc.Props.C29_user_newpred_name_unsound
#print axioms Gkc.Props.C29_quoted_true_dropped
#print axioms Gkc.Props.C35_para_into_stored_complete
#print axioms Gkc.Props.C35_para_from_stored_complete
#print axioms Gkc.Props.C35_para_into_stored_sound
#print axioms Gkc.Props.C30_copy_is_variant
#print axioms Gkc.Props.C30_copy_terminates
#print axioms Gkc.Props.C30_refused_only_for_many_variables
#print axioms Gkc.Props.C30_truth_only_from_constants
#print axioms Gkc.Props.C30_banks_disjoint
#print axioms Gkc.Props.C30_copy_undone
#print axioms Gkc.Props.C30_evaluated_false_loses_clause
#print axioms Gkc.Props.C34_sort_permutes_descending
#print axioms Gkc.Props.C34_bigger_is_weak_order
#print axioms Gkc.Props.C31_sum_exact_or_kept
#print axioms Gkc.Props.C31_difference_exact_or_kept
#print axioms Gkc.Props.C31_product_exact_or_kept
#print axioms Gkc.Props.C31_uminus_exact_or_kept
#print axioms Gkc.Props.C31_comparisons_exact
#print axioms Gkc.Props.C31_no_undefined_behaviour
#print axioms Gkc.Props.C31_evaluation_has_model
#print axioms Gkc.Props.C32_quotient_truncates
#print axioms Gkc.Props.C32_zero_divisor_kept
#print axioms Gkc.Props.C32_quotient_least_kept
#print axioms Gkc.Props.C32_remainders_truncate
#print axioms Gkc.Props.C32_quotient_t_partial
#print axioms Gkc.Props.C32_quotient_f_partial
#print axioms Gkc.Props.C32_quotient_e_only_exact
#print axioms Gkc.Props.C32_euclidean_wrong
#print axioms Gkc.Props.C32_remainder_f_wrong
#print axioms Gkc.Props.C32_quotient_t_above_2_53
#print axioms Gkc.Props.C36_equality_right
#print axioms Gkc.Props.C36_data_equality_decided
#print axioms Gkc.Props.C36_list_parts
#print axioms Gkc.Props.C36_list_parts_kept
#print axioms Gkc.Props.C36_type_predicates_wrong
#print axioms Gkc.Props.C37_strict_comparison_partial
#print axioms Gkc.Props.C37_lesseq_partial
#print axioms Gkc.Props.C37_lesseq_mixed_wrong
#print axioms Gkc.Props.C37_large_integer_wrong
#print axioms Gkc.Props.C31_comparisons_exact
#print axioms Gkc.Props.C38_substr_right
#print axioms Gkc.Props.C38_substrat_partial
#print axioms Gkc.Props.C38_substrat_wrong
#print axioms Gkc.Props.C38_substr_of_constants
#print axioms Gkc.Props.C33_kept_clauses_follow_partial
#print axioms Gkc.Props.C33_refutation_sound_partial
#print axioms Gkc.Props.C33_refutation_means_unsatisfiable_partial
#print axioms Gkc.Props.C33_refutation_sound_arith_partial
#print axioms Gkc.Props.C33_answers_hold_partial
#print axioms Gkc.Props.C33_shared_symbol_refutes_satisfiable
#print axioms Gkc.Props.C39_entries_keep_their_clause_partial
#print axioms Gkc.Props.C39_all_entries_keep_their_clause_partial
#print axioms Gkc.Props.C39_simplified_given_entry_changes
#print axioms Gkc.Props.C40_proof_means_consequence_partial
#print axioms Gkc.Props.C40_large_integer_false_proof
#print axioms Gkc.Props.C40_shared_symbol_false_proof
#print axioms Gkc.Props.C41_consequence_means_contradictory
#print axioms Gkc.Props.C41_consequence_iff_contradictory
#print axioms Gkc.Props.C41_problem_accepted
#print axioms Gkc.Props.C42_objects
#print axioms Gkc.Props.C42_alloc
#print axioms Gkc.Props.C42_free_partial
#print axioms Gkc.Props.C42_free_marked
#print axioms Gkc.Props.C42_free_refused
#print axioms Gkc.Props.C42_free_reads_outside
#print axioms Gkc.Props.C43_raw_records
#print axioms Gkc.Props.C43_data_records
#print axioms Gkc.Props.C43_create
#print axioms Gkc.Props.C43_delete_partial
#print axioms Gkc.Props.C43_deleted_still_given
#print axioms Gkc.Props.C44_exclusion_partial
#print axioms Gkc.Props.C44_queue_lock
#print axioms Gkc.Props.C44_two_writers
#print axioms Gkc.Props.C45_order_partial
#print axioms Gkc.Props.C45_first_served_partial
#print axioms Gkc.Props.C45_stall
#print axioms Gkc.Props.C46_contradiction_sound
#print axioms Gkc.Props.C46_file_sound
#print axioms Gkc.Props.C46_file_format
#print axioms Gkc.Props.C46_ground_exact
#print axioms Gkc.Props.C46_instances_exact_partial
#print axioms Gkc.Props.C46_instance_lost
#print axioms Gkc.Props.C46_bucket_in_table
#print axioms Gkc.Props.C46_no_stale_read_partial
#print axioms Gkc.Props.C46_stale_read
#print axioms Gkc.Props.C46_solver_sound_partial
#print axioms Gkc.Props.C46_shared_files
#print axioms Gkc.Props.C47_instance_sound
#print axioms Gkc.Props.C47_instance_exact_partial
#print axioms Gkc.Props.C47_instance_too_special
#print axioms Gkc.Props.C48_listing_partial
#print axioms Gkc.Props.C48_references
#print axioms Gkc.Props.C48_checkable
#print axioms Gkc.Props.C48_tptp_partial
#print axioms Gkc.Props.C48_position_lost
#print axioms Gkc.Props.C48_para_exchanged
#print axioms Gkc.Props.C48_cut_lost
#print axioms Gkc.Props.C48_input_read_past
#print axioms Gkc.Props.C48_tptp_propinst
#print axioms Gkc.Props.C48_extprop_alone
#print axioms Gkc.Props.C49_document_partial
#print axioms Gkc.Props.C49_proof_partial
#print axioms Gkc.Props.C49_one_value
#print axioms Gkc.Props.C49_digits
#print axioms Gkc.Props.C49_merge_not_json
#print axioms Gkc.Props.C49_inst_not_json
#print axioms Gkc.Props.C49_extprop_not_json
#print axioms Gkc.Props.C49_sum_not_json
#print axioms Gkc.Props.C49_backslash_not_json
#print axioms Gkc.Props.C49_name_not_json
#print axioms Gkc.Props.C49_integer_wrong
#print axioms Gkc.Props.C50_answers_are_answers_partial
#print axioms Gkc.Props.C50_proof_without_answer_partial
#print axioms Gkc.Props.C50_answer_literals_positive
#print axioms Gkc.Props.C50_answers_listed_once
#print axioms Gkc.Props.C50_enough_answers
#print axioms Gkc.Props.C50_answer_vector
#print axioms Gkc.Props.C50_second_proof_undefined
#print axioms Gkc.Props.C50_order_counts_twice
#print axioms Gkc.Props.C50_negative_answer
#print axioms Gkc.Props.C51_same_word_iff_same_name
#print axioms Gkc.Props.C51_word_decodes
#print axioms Gkc.Props.C51_again
#print axioms Gkc.Props.C51_uri_list
#print axioms Gkc.Props.C51_ids_differ
#print axioms Gkc.Props.C51_short_is_new
#print axioms Gkc.Props.C51_prefix_lost
#print axioms Gkc.Props.C51_uri_unlisted
#print axioms Gkc.Props.C51_ids_clash
#print axioms Gkc.Props.C52_compare_right_partial
#print axioms Gkc.Props.C52_compare_total_partial
#print axioms Gkc.Props.C52_nan_both_less
#print axioms Gkc.Props.C52_language_ignored
#print axioms Gkc.Props.TT.C53_index_right_partial
#print axioms Gkc.Props.TT.C53_index_total_partial
#print axioms Gkc.Props.TT.C53_depth
#print axioms Gkc.Props.TT.C53_chain
#print axioms Gkc.Props.TT.C53_no_memory
#print axioms Gkc.Props.TT.C53_create_index
#print axioms Gkc.Props.TT.C53_database
#print axioms Gkc.Props.TT.C53_row_lost
#print axioms Gkc.Props.Qu.C54_query_partial
#print axioms Gkc.Props.Qu.C54_find_record_partial
#print axioms Gkc.Props.Qu.C54_clash_wrong
#print axioms Gkc.Props.Qu.C54_illegal_wrong
#print axioms Gkc.Props.Qu.C54_count_unset
#print axioms Gkc.Props.Ih.C55_current_partial
#print axioms Gkc.Props.Ih.C55_hooks
#print axioms Gkc.Props.Ih.C55_field_hooks
#print axioms Gkc.Props.Ih.C55_record_not_indexed
#print axioms Gkc.Props.Ih.C55_record_not_indexed_wrong
#print axioms Gkc.Props.Ih.C55_template_twice
#print axioms Gkc.Props.Ih.C55_stale_key
#print axioms Gkc.Props.Ih.C55_dead_row
#print axioms Gkc.Props.Ih.C55_delete_fails
#print axioms Gkc.Props.Ih.C55_second_removal
#print axioms Gkc.Props.Ih.C55_stale_removal
#print axioms Gkc.Props.Js.C56_meaning_partial
#print axioms Gkc.Props.Js.C56_empty
#print axioms Gkc.Props.Js.C56_rest_dropped
#print axioms Gkc.Props.Js.C56_conjunct_dropped
#print axioms Gkc.Props.Js.C56_negated_capital
#print axioms Gkc.Props.Js.C56_proposition
#print axioms Gkc.Props.Js.C56_tilde
#print axioms Gkc.Props.Js.C56_two_signs
#print axioms Gkc.Props.Js.C56_null
#print axioms Gkc.Props.Js.C56_empty_string
#print axioms Gkc.Props.Js.C56_names
#print axioms Gkc.Props.Js.C56_three
#print axioms Gkc.Props.Js.C56_word_argument
#print axioms Gkc.Props.Js.C57_proof_means_consequence_partial
#print axioms Gkc.Props.Js.C57_answers_are_answers_partial
#print axioms Gkc.Props.Js.C57_every_problem_is_read
#print axioms Gkc.Props.Calc.C58_proof_means_consequence_partial
#print axioms Gkc.Props.Calc.C58_answers_are_answers_partial
#print axioms Gkc.Props.Calc.C58_proof_without_answer_partial
#print axioms Gkc.Props.Calc.C58_ordinary_arithmetic
#print axioms Gkc.Props.Calc.C58_structure_exists
#print axioms Gkc.Props.Calc.C58_numbers_exist
#print axioms Gkc.Props.Calc.C58_skolem_name_false_proof
#print axioms Gkc.Props.Dp.C59_restored_partial
#print axioms Gkc.Props.Dp.C59_accepted
#print axioms Gkc.Props.Dp.C59_damage_refused
#print axioms Gkc.Props.Dp.C59_length_refused
#print axioms Gkc.Props.Dp.C59_reader_spoils_dump
#print axioms Gkc.Props.Dp.C59_writer_spoils_dump
#print axioms Gkc.Props.Dp.C59_old_dump_lost
#print axioms Gkc.Props.Dp.C59_not_crc32
#print axioms Gkc.Props.Dp.C59_table
#print axioms Gkc.Props.Dp.C59_import_succeeds
#print axioms Gkc.Props.Dp.C59_refused_untouched
#print axioms Gkc.Props.Cv.C60_formula_partial
#print axioms Gkc.Props.Cv.C60_file_partial
#print axioms Gkc.Props.Cv.C60_empty
#print axioms Gkc.Props.Cv.C60_capture
#print axioms Gkc.Props.Cv.C60_capture_differs
#print axioms Gkc.Props.Cv.C60_object
#print axioms Gkc.Props.Cv.C60_variable
#print axioms Gkc.Props.Cv.C60_true
#print axioms Gkc.Props.Cv.C60_backslash
#print axioms Gkc.Props.Cv.C60_backslash_not_json
#print axioms Gkc.Props.Cv.C60_zero
#print axioms Gkc.Props.Cv.C60_list
#print axioms Gkc.Props.Cv.C60_leftover
#print axioms Gkc.Props.Cv.C60_include_last
#print axioms Gkc.Props.Cv.C60_include_empty
#print axioms Gkc.Props.Cv.C60_roles
#print axioms Gkc.Props.Cv.C60_buffer
#print axioms Gkc.Props.Cv.C60_buffer_kept
#print axioms Gkc.Props.C61_finished_means_satisfiable
#print axioms Gkc.Props.C61_proof_means_unsatisfiable
#print axioms Gkc.Props.C61_answers_agree
#print axioms Gkc.Props.C61_search_settles_conjecture
#print axioms Gkc.Props.C61_size_limit_hides_proof
#print axioms Gkc.Props.C62_fair_search_finds_proof
#print axioms Gkc.Props.C62_oldest_again_and_again
#print axioms Gkc.Props.C63_choice_loses_nothing_partial
#print axioms Gkc.Props.C63_finished_means_satisfiable_partial
#print axioms Gkc.Props.C63_oldest_again_and_again_partial
#print axioms Gkc.Props.C63_knuthbendix_chooses_largest
#print axioms Gkc.Props.C63_preferred_sign
#print axioms Gkc.Props.C63_symbols_have_one_ranking
#print axioms Gkc.Props.C63_one_ranking_iff
#print axioms Gkc.Props.C63_hardness_loses_proof
#print axioms Gkc.Props.C63_number_between_symbols_loses_proof
#print axioms Gkc.Props.C64_filter_ends
#print axioms Gkc.Props.C64_kept_are_input
#print axioms Gkc.Props.C64_proof_is_right
#print axioms Gkc.Props.C64_goals_kept
#print axioms Gkc.Props.C64_outside_dropped
#print axioms Gkc.Props.C64_kept_relevant
#print axioms Gkc.Props.C64_kept_iff
#print axioms Gkc.Props.C64_kept_few
#print axioms Gkc.Props.C64_without_goals
#print axioms Gkc.Props.C64_no_common_predicate
#print axioms Gkc.Props.C64_connected_lose_nothing_partial
#print axioms Gkc.Props.C64_rare_symbols_lose_nothing_partial
#print axioms Gkc.Props.C64_frequent_symbol_loses_proof
#print axioms Gkc.Props.C64_trigger_limit_loses_proof
#print axioms Gkc.Props.Fd.C65_calls_do_what_they_should_partial
#print axioms Gkc.Props.Fd.C65_fields_readable_partial
#print axioms Gkc.Props.Fd.C65_record_kept_partial
#print axioms Gkc.Props.Fd.C65_set_field_does_nothing
#print axioms Gkc.Props.Fd.C65_delete_never_refused
#print axioms Gkc.Props.Fd.C65_delete_of_referring_fails
#print axioms Gkc.Props.Fd.C65_no_parents
#print axioms Gkc.Props.Fd.C65_delete_destroys_other_record
#print axioms Gkc.Props.Fd.C65_free_destroys_string_in_use
#print axioms Gkc.Props.Fd.C65_delete_leaves_dangling_reference
#print axioms Gkc.Props.Fd.C65_without_quick_calls_do_what_they_should
#print axioms Gkc.Props.Fd.C65_without_quick_fields_readable
#print axioms Gkc.Props.Fd.C65_without_quick_record_kept
#print axioms Gkc.Props.Fd.C65_without_quick_parents_partial
#print axioms Gkc.Props.Fd.C65_without_quick_parents_endless
#print axioms Gkc.Props.Ps.C66_file_partial
#print axioms Gkc.Props.Ps.C66_left_partial
#print axioms Gkc.Props.Ps.C66_size
#print axioms Gkc.Props.Ps.C66_unambiguous
#print axioms Gkc.Props.Ps.C66_no_blanks
#print axioms Gkc.Props.Ps.C66_missing_operand
#print axioms Gkc.Props.Ps.C66_arithmetic
#print axioms Gkc.Props.Ps.C66_unclosed
#print axioms Gkc.Props.Ps.C66_unknown_characters
#print axioms Gkc.Props.Ps.C66_backslash
#print axioms Gkc.Props.Ps.C66_long
#print axioms Gkc.Props.Pb.C67_proof_means_consequence_partial
#print axioms Gkc.Props.Pb.C67_every_statement_is_read
#print axioms Gkc.Props.Pb.C67_consequence_means_contradictory
#print axioms Gkc.Props.Pb.C67_search_settles_the_file
#print axioms Gkc.Props.Pb.C67_proof_is_found
#print axioms Gkc.Props.Pb.C67_source_hides_the_formula
#print axioms Gkc.Props.Pb.C67_source_example
#print axioms Gkc.Props.Pb.C67_cnf_role_ignored
#print axioms Gkc.Props.Pb.C67_quantifier_in_clause
#print axioms Gkc.Props.Pb.C67_quotes_make_another_name
#print axioms Gkc.Props.Inc.C68_everything_is_read
#print axioms Gkc.Props.Inc.C68_no_error_is_lost
#print axioms Gkc.Props.Inc.C68_proof_means_consequence_partial
#print axioms Gkc.Props.Inc.C68_search_settles_the_problem
#print axioms Gkc.Props.Inc.C68_proof_is_found
#print axioms Gkc.Props.Inc.C68_second_folder_is_lost
#print axioms Gkc.Props.Inc.C68_missing_file_is_no_error
#print axioms Gkc.Props.Inc.C68_only_includes_refused
#print axioms Gkc.Props.Inc.C68_formula_in_included_file
#print axioms Gkc.Props.Inc.C68_file_in_itself
#print axioms Gkc.Props.Inc.C69_status_partial
#print axioms Gkc.Props.Inc.C69_clauses
#print axioms Gkc.Props.Inc.C69_no_conjecture
#print axioms Gkc.Props.Inc.C69_include_forgets
#print axioms Gkc.Props.Hx.C70_exact_partial
#print axioms Gkc.Props.Hx.C70_once_partial
#print axioms Gkc.Props.Hx.C70_none_missed
#print axioms Gkc.Props.Hx.C70_hashable
#print axioms Gkc.Props.Hx.C70_large_integers
#print axioms Gkc.Props.Hx.C70_language
#print axioms Gkc.Props.Hx.C70_uri_prefix
#print axioms Gkc.Props.Hx.C70_two_zeros
#print axioms Gkc.Props.Hx.C70_blob
#print axioms Gkc.Props.Jq.C71_exact_partial
#print axioms Gkc.Props.Jq.C71_indexes_agree
#print axioms Gkc.Props.Jq.C71_unique_partial
#print axioms Gkc.Props.Jq.C71_intersect_partial
#print axioms Gkc.Props.Jq.C71_deep
#print axioms Gkc.Props.Jq.C71_deep_pair
#print axioms Gkc.Props.Jq.C71_outside
#print axioms Gkc.Props.Jq.C71_shared
#print axioms Gkc.Props.Jq.C71_too_few_places
#print axioms Gkc.Props.Jq.C71_too_large
#print axioms Gkc.Props.Eh.C72_exact_partial
#print axioms Gkc.Props.Eh.C72_added
#print axioms Gkc.Props.Eh.C72_translate_partial
#print axioms Gkc.Props.Eh.C72_succeeds_partial
#print axioms Gkc.Props.Eh.C72_few
#print axioms Gkc.Props.Eh.C72_old_value
#print axioms Gkc.Props.Eh.C72_value_changes
#print axioms Gkc.Props.Eh.C72_eight_times
#print axioms Gkc.Props.Eh.C72_capacity
#print axioms Gkc.Props.Gd.C73_runs_partial
#print axioms Gkc.Props.Gd.C73_shared_out_partial
#print axioms Gkc.Props.Gd.C73_one_process_partial
#print axioms Gkc.Props.Gd.C73_no_runs
#print axioms Gkc.Props.Gd.C73_ten_runs
#print axioms Gkc.Props.Gd.C73_ten_runs_forever
#print axioms Gkc.Props.Gd.C73_one_too_many
#print axioms Gkc.Props.Gd.C73_sequence
#print axioms Gkc.Props.Gd.C73_values
#print axioms Gkc.Props.Ag.C74_fits_partial
#print axioms Gkc.Props.Ag.C74_runs_partial
#print axioms Gkc.Props.Ag.C74_all_made_partial
#print axioms Gkc.Props.Ag.C74_longer
#print axioms Gkc.Props.Ag.C74_huge
#print axioms Gkc.Props.Ag.C74_special_fits
#print axioms Gkc.Props.Ag.C74_special_runs
#print axioms Gkc.Props.Ag.C74_special_none
#print axioms Gkc.Props.Is.C75_right_partial
#print axioms Gkc.Props.Is.C75_equality_partial
#print axioms Gkc.Props.Is.C75_unit_equality_partial
#print axioms Gkc.Props.Is.C75_parameters_partial
#print axioms Gkc.Props.Is.C75_measures
#print axioms Gkc.Props.Is.C75_defined
#print axioms Gkc.Props.Is.C75_no_clauses
#print axioms Gkc.Props.Is.C75_too_long
#print axioms Gkc.Props.Oc.C76_counted_partial
#print axioms Gkc.Props.Oc.C76_compared_partial
#print axioms Gkc.Props.Oc.C76_shared
#print axioms Gkc.Props.Oc.C76_limit
