#!/usr/bin/env python3
"""Writes properties.jsonl (one JSON object per line)."""
import json, os
P = []
def p(id, title, statement, quantifier, why, anchors):
    P.append(dict(id=id, title=title, statement=statement, quantifier=quantifier,
                  why_tests_cant=why, anchors=anchors))

p("C01", "Stored integers read back unchanged",
  "Encoding any integer with the public encoder and decoding the resulting field value with the public decoder returns the same integer, whether the value is packed inline in the field or placed in a separately allocated cell.",
  "every machine integer accepted by the encoder and every free-cell address the allocator may hand out",
  "The inline/out-of-line decision and the shifts depend on the sign and the top bits; there are 2^32 (2^64) inputs.",
  ["Db/dbdata.h: encode_smallint, decode_smallint, fits_smallint, isfullint", "Db/dbdata.c: wg_encode_int, wg_decode_int"])
p("C02", "The data type of a field is always recoverable",
  "For every value encoded by any of the encoders (null, record, integer, double, string, char, fixed point, date, time, anonymous constant, variable), asking for the type of the encoded field returns the type that was encoded; in particular no encoded value of one type can be mistaken for a value of another type.",
  "every payload of every type, every legal heap offset",
  "The tag space overlaps (1,2,3,4 and 8 bit tags nested in one another); disjointness is a statement about all payloads.",
  ["Db/dbdata.c: wg_get_encoded_type", "Db/dbdata.h: isptr, isimmediatedata, isdatarec, islongstr, isfulldouble, isshortstr, isfullint, issmallint, isvar, ischar, isdate, istime, isfixpoint, isanonconst, istinystr"])
p("C03", "Immediate values round-trip",
  "Characters, dates, times, fixed point numbers, anonymous constants and variables decode to exactly the value that was encoded, for every payload in the range the encoder accepts, and encoders reject (rather than silently corrupt) the rest.",
  "every payload in the documented range of each type",
  "Ranges are of size up to 2^60; corruption shows up only at the ends of the ranges.",
  ["Db/dbdata.h: encode_char, encode_date, encode_time, decode_time, encode_fixpoint, encode_var", "Db/dbdata.c: wg_encode_date, wg_decode_date, wg_encode_time, wg_decode_time, wg_encode_var, wg_decode_var"])
p("C04", "Calendar conversion is exact",
  "Converting a valid Gregorian calendar date (year>=1) to the day number and back returns the same year, month and day; consecutive dates get consecutive day numbers; converting any positive day number to a date yields a valid Gregorian date that converts back to that number.",
  "every valid date / every day number, with no upper limit on the year",
  "The inverse uses integer arithmetic approximations (n*400/146097, (n*100+3007)/3057) whose correctness at every year boundary, leap rule and month end cannot be sampled.",
  ["Db/dbdata.c: isleap, months_to_days, years_to_days, ymd_to_scalar, scalar_to_ymd, wg_ymd_to_date, wg_date_to_ymd"])
p("C05", "Time of day conversion is exact",
  "Converting hours, minutes, seconds and hundredths of a valid time of day to the stored number and back returns the same four numbers, and later times of day get larger numbers.",
  "every valid time of day",
  "Exhaustive over 8.64 million values is possible in principle but the validity check itself accepts out-of-range values whose behaviour must be characterised.",
  ["Db/dbdata.c: wg_hms_to_time, wg_time_to_hms"])
p("C06", "Term equality decides structural identity",
  "The prover's term equality test answers yes on two terms exactly when they are the same term (same constants and variables in the same positions); the variant that ignores variable banks answers yes exactly when they are the same after each variable is reduced to its number within its bank.",
  "every pair of terms",
  "Unbounded term structure.",
  ["Reasoner/unify.c: wr_equal_term, wr_equal_term_macroaux, wr_equal_mod_vars_term, wr_equal_ptr_primitives", "Reasoner/unify.h: WR_EQUAL_TERM"])
p("C07", "One-way matching is sound and complete",
  "If matching a general term against a term succeeds, instantiating the general term with the recorded bindings gives exactly the other term; if some instantiation of the general term extending the earlier bindings gives the other term, matching succeeds. The second term is never instantiated.",
  "every pair of terms, every prior binding state",
  "Universally quantified over unbounded terms and partial bindings; incompleteness shows up only in repeated-variable patterns.",
  ["Reasoner/unify.c: wr_match_term, wr_match_term_aux"])
p("C08", "Unification computes a most general unifier",
  "Unification always terminates; on success the recorded bindings make the two terms identical, are acyclic, and every other unifier extending the earlier bindings is an instance of them; on failure no unifier exists.",
  "every pair of terms, every acyclic prior binding state",
  "Most-generality and completeness quantify over all substitutions; termination depends on the occurs check covering indirect cycles.",
  ["Reasoner/unify.c: wr_unify_term, wr_unify_term_aux, wr_occurs_in"])
p("C09", "Bindings are fully undone after an attempt",
  "After a matching or unification attempt (successful or failed half-way) and the following clear-variables call, every variable is again unbound exactly as before the attempt; undoing down to a saved position restores exactly the bindings at that moment.",
  "every sequence of attempts, successes and failures",
  "Leaked bindings only surface in later unrelated inferences; depends on histories.",
  ["Reasoner/unify.c: wr_clear_varstack, wr_clear_varstack_topslice, wr_clear_all_varbanks", "Reasoner/unify.h: SETVAR, UNIFY_VARSTACK"])
p("C10", "The literal pre-filter never hides a match",
  "Whenever a literal has an instance equal to another literal of the same polarity, the precomputed literal summaries (size, depth, ground flag, constant prefix) pass the quick check, so that the quick check can only skip pairs that cannot match.",
  "every pair of atoms and every substitution, including terms whose size/depth/prefix exceed the summary's saturation limits",
  "Saturation and bit packing make counterexamples depend on extreme sizes and hash values.",
  ["Reasoner/clmeta.c: wr_calc_lit_meta, wr_calc_term_meta, wr_litmeta_to_gint", "Reasoner/clterm.h: ATOM_META_*", "Reasoner/subsume.c: wr_matchable_lit_meta"])
p("C11", "Clause subsumption is sound and complete",
  "The subsumption test answers yes exactly when there is one substitution under which every literal of the general clause equals a distinct literal of the specific clause; hence a clause is thrown away as subsumed only if an already kept clause implies it.",
  "every pair of clauses (any number of literals, in the order the prover sorts them)",
  "The search backtracks over exponentially many assignments with three kinds of pruning; a wrong cut is invisible on most inputs.",
  ["Reasoner/subsume.c: wr_subsume_cl, wr_subsume_cl_aux, wr_matchable_lit_meta", "Reasoner/clmeta.c: wr_sort_cl, wr_inssort_cl, wr_sort_meta_bigger"])
p("C12", "The clause-level pre-filter never hides a subsumption",
  "Whenever a clause subsumes another, the quick check on the precomputed clause summaries lets the full test run.",
  "every pair of clauses",
  "A wrongly rejected pair only makes the search slower or incomplete, never produces a visible error.",
  ["Reasoner/subsume.c: wr_clmetablock_can_subsume", "Reasoner/clmeta.c: wr_calc_clause_meta, wr_add_cl_to_metablock, limit_byte"])
p("C13", "Resolution inferences are sound",
  "Every clause produced by resolving two kept clauses is a logical consequence of those two clauses.",
  "every pair of clauses, every choice of literals, every first-order interpretation",
  "Soundness is a statement about all interpretations.",
  ["Reasoner/resolve.c: wr_resolve_binary_all_active", "Reasoner/derive.c: wr_process_resolve_result, wr_process_resolve_result_aux"])
p("C14", "Factoring and equality-reflexivity inferences are sound",
  "Every clause produced by unifying two literals of one clause, or by removing a negative equality with unifiable sides, is a logical consequence of that clause.",
  "every clause, every literal choice, every interpretation (with equality as identity)",
  "Soundness is a statement about all interpretations.",
  ["Reasoner/resolve.c: wr_factor, wr_resolve_equality_reflexive", "Reasoner/derive.c: wr_process_factor_result, wr_process_simple_derived_cl"])
p("C15", "Paramodulation is sound and replaces exactly one position",
  "The clause produced by paramodulating an equation into a clause equals the target clause instance with exactly the selected subterm occurrence replaced, plus the equation clause's side literals, and is a logical consequence of the two clauses in every interpretation where equality is identity.",
  "every equation, target atom, position and interpretation",
  "Position is identified by a running counter over the flattened term while variables are being expanded; off-by-one shows only for particular nestings.",
  ["Reasoner/build.c: wr_build_calc_term_replace", "Reasoner/clstore.c: wr_cl_store_para_subterms, wr_encode_para_termpath, wr_decode_para_termpath_pos", "Reasoner/derive.c: wr_process_paramodulate_result, wr_process_paramodulate_result_aux"])
p("C16", "Duplicate-literal removal and tautology deletion preserve meaning",
  "Assembling a derived clause drops a literal only if an identical literal is already present, and abandons the clause only if it is true in every interpretation (or has more distinct variables than the fixed bank of 1000 can hold); otherwise the stored clause is logically equivalent to the disjunction of the instantiated literals of the parents.",
  "every list of instantiated literals, every interpretation",
  "Meaning preservation quantifies over interpretations and all literal lists.",
  ["Reasoner/derive.c: wr_process_resolve_result_aux, wr_process_simple_derived_cl", "Reasoner/subsume.c: wr_is_tautology_cl"])
p("C17", "Strong-duplicate removal preserves the clause",
  "Removing a literal because it generalises, via variables occurring nowhere else in the clause, another literal that is kept yields a clause that is logically equivalent to the original clause.",
  "every clause and interpretation",
  "The removed literals refer to each other through chains during the same pass.",
  ["Reasoner/derive.c: wr_find_strong_duplicates, wr_remove_strong_duplicates", "Reasoner/unify.c: wr_nomatch_term_uniquevars"])
p("C18", "Unit-clause cuts are sound",
  "Deleting literals of a derived clause by already known unit clauses (simple, strong and double cuts) yields a clause implied by the original clause and those unit clauses; deleting a whole clause happens only when a kept clause implies it.",
  "every clause, every set of kept unit clauses, every interpretation",
  "Quantifies over interpretations and over unbounded unit sets.",
  ["Reasoner/subsume.c: wr_derived_cl_cut_and_subsume, wr_atom_cut_and_subsume, wr_derived_cl_strong_cut", "Reasoner/simp.c: wr_simplify_cl"])
p("C19", "Rewriting is sound",
  "Rewriting a term with kept unit equations produces a term equal to the original in every interpretation that satisfies those equations.",
  "every term, every list of equations, every interpretation",
  "Quantifies over interpretations; nested rewriting under substitutions.",
  ["Reasoner/rewrite.c: wr_rewrite_term, wr_rewrite_constant", "Reasoner/build.c: wr_build_calc_term"])
p("C20", "Rewriting terminates",
  "With equations oriented by the prover's term ordering, rewriting any term finishes: there is no infinite sequence of rewrite steps.",
  "every finite or infinite set of oriented equations and every starting term",
  "Non-termination cannot be observed by a finite test.",
  ["Reasoner/strat.c: wr_order_eqterms, wr_order_eqterms_lex_order", "Reasoner/clstore.c: wr_cl_store_para_terms", "Reasoner/rewrite.c: wr_rewrite_term"])
p("C21", "The term ordering is a strict order stable under instantiation and context",
  "If the prover decides a term is bigger than another, then it is never also decided smaller, the relation is transitive, it is preserved when variables of both are replaced by terms, and when both are put in the same argument position of a function.",
  "all terms, substitutions and contexts",
  "Algebraic laws over unbounded terms.",
  ["Reasoner/strat.c: wr_order_eqterms, wr_order_eqterms_lex_order, wr_record_varocc, wr_countedvarlist_is_subset"])
p("C22", "The priority queue returns lightest first, first-in first-out, and loses nothing",
  "Picking from the clause priority queue returns a clause of the smallest priority present; among equal priorities the earliest pushed; a pushed clause (with a priority in range) is returned exactly once; an empty answer means nothing is left.",
  "every history of pushes and picks",
  "Quantifies over all interleavings; buckets are reallocated as they grow.",
  ["Reasoner/clstore.c: wr_make_priorqueue, wr_push_priorqueue, wr_pick_priorqueue"])
p("C23", "Given-clause selection is fair",
  "Every clause pushed to the passive set is eventually picked if picks continue, whatever further clauses are pushed meanwhile; a pick reports an empty passive set only when no block holds an unpicked clause.",
  "every infinite history of pushes interleaved with picks",
  "Fairness is a liveness property of infinite runs.",
  ["Reasoner/clstore.c: wr_pick_from_clpick_queues, wr_pick_from_clpick_queues_aux, wr_push_cl_clpick_queues, wr_create_clpick_queues"])
p("C24", "The prefix-hash literal index never misses a resolution partner",
  "If two atoms are unifiable (after renaming apart), then looking up one of them in the index buckets finds the other, for every stored and every query atom; the buckets searched depend only on constant prefixes up to length three.",
  "all pairs of atoms, any hash function values",
  "A missed bucket makes the search silently incomplete.",
  ["Reasoner/clstore.c: wr_cl_store_res_terms", "Reasoner/hash.c: wr_atom_calc_prefhashes, wr_atom_calc_prefhashes_aux", "Reasoner/resolve.c: wr_resolve_binary_all_active"])
p("C25", "Growable vectors and term hash tables keep everything that was pushed",
  "Values stored in a growable vector read back unchanged until overwritten, no access goes outside the allocated block; a term pushed to a term hash table is found by a later lookup of an equal term, and a lookup never reports a term that is not equal to the key.",
  "every sequence of stores and pushes",
  "Histories of growth; boundary arithmetic on capacity versus next-free index.",
  ["Reasoner/mem.c: wr_vec_new, wr_vec_store, wr_vec_realloc, wr_cvec_store, wr_cvec_push", "Reasoner/hash.c: wr_push_termhash, wr_search_termhash, wr_term_hash"])
p("C26", "Negation push preserves meaning and yields negation normal form",
  "The formula produced by pushing negations inwards is equivalent (or equivalent to the negation, if so requested) in every interpretation, and negation occurs only on atoms, with only and/or/quantifiers left.",
  "every formula, interpretation and variable assignment",
  "Quantifies over interpretations and unbounded formulas.",
  ["Parser/dbclausify.c: wr_clausify_negpush"])
p("C27", "Miniscoping preserves meaning",
  "Moving quantifiers inwards yields a formula equivalent to the original in every interpretation with a non-empty domain.",
  "every formula in negation normal form and every interpretation",
  "Quantifies over interpretations; capture and dropped subformulas are rare syntactic cases.",
  ["Parser/dbclausify.c: wr_clausify_miniscope, wr_miniscope_freeoccs, wr_miniscope_varssubset"])
p("C28", "Skolemisation preserves satisfiability",
  "The quantifier-free result of replacing existential variables by Skolem terms is satisfiable (its universal closure) exactly when the original formula is.",
  "every formula in negation normal form, every interpretation",
  "Requires constructing Skolem functions for arbitrary interpretations.",
  ["Parser/dbclausify.c: wr_clausify_skolemize, wr_clausify_append_vars, wr_clausify_replace_vars"])
p("C29", "Conversion to clauses preserves satisfiability",
  "Distributing or over and yields a conjunction of clauses equivalent to the input; when definitions of subformulas are introduced, the result together with the definitions is satisfiable exactly when the input is; flattening to clause lists simplifying true/false keeps the meaning.",
  "every quantifier-free formula in negation normal form",
  "Quantifies over interpretations; the mixed strategy nests definitions.",
  ["Parser/dbclausify.c: wr_clausify_distribute, wr_clausify_makedef, wr_flatten_logclause, wr_flatten_logclause_or"])
p("C30", "Clause copies use fresh variables and are variants",
  "A rebuilt copy of a clause equals the original instance with variables consistently renamed one-to-one into the requested variable range, numbered densely from zero, so copies in different ranges share no variable; a clause with too many variables is rejected instead of being renamed wrongly.",
  "every clause and every binding state",
  "Sharing of variables across copies would silently make inferences unsound or incomplete; depends on unbounded clause shapes.",
  ["Reasoner/build.c: wr_build_calc_term, wr_build_calc_cl", "Reasoner/rgenloop.c: wr_process_given_cl_setupsubst"])
p("C31", "Integer arithmetic on terms is exact or refused",
  "Evaluating sum, difference and product of integer constants gives exactly the mathematical result, or the term is left unevaluated when the result does not fit; it is never silently wrapped.",
  "all pairs of integers",
  "Overflow boundaries over 2^128 pairs.",
  ["Reasoner/build.c: wr_gint_add_checked, wr_gint_sub_checked, wr_gint_mul_checked, wr_compute_fun_arith2"])
p("C32", "Integer quotient and remainder variants satisfy their division laws",
  "For integers a and b != 0, each variant pair (Euclidean, truncating, flooring) returns q and r with a = b*q + r and the sign/range of r prescribed by the variant.",
  "all pairs of integers with nonzero divisor",
  "Sign combinations and magnitudes above 2^53 (intermediate floating point).",
  ["Reasoner/build.c: wr_compute_fun_arith2"])
p("C33", "A reported refutation means the input clauses are unsatisfiable",
  "In every run of the saturation loop, every clause ever kept (passive, active, unit index, rewriting table) is a logical consequence of the input clauses; hence if the loop derives the empty clause the input has no model.",
  "every finite sequence of loop steps with any selection, simplification and strategy decisions",
  "The run is an arbitrary interleaving of generating, simplifying and deleting steps; only an invariant covers all of them.",
  ["Reasoner/rgenloop.c: wr_genloop", "Reasoner/resolve.c", "Reasoner/derive.c", "Reasoner/simp.c", "Reasoner/subsume.c"])
p("C34", "Clause literal sorting is a permutation into descending order",
  "Sorting the literals of a clause by summary permutes the literals (none lost or duplicated, each literal keeps its own summary) and puts them into descending order.",
  "every clause",
  "Unbounded clause length; the subsumption search's early exit relies on it.",
  ["Reasoner/clmeta.c: wr_sort_cl, wr_inssort_cl, wr_sort_meta_bigger"])
p("C35", "The term indexes never miss a paramodulation partner",
  "Looking up a side of an equation finds every stored non-variable proper subterm it unifies with, with the right clause, literal and position; looking up a subterm finds every stored equation side it unifies with that the ordering permits; and everything found sits where it is said to be.",
  "every sequence of stored clauses and every looked-up term",
  "Unbounded clause sets and positions; a lost entry is silent incompleteness.",
  ["Reasoner/clstore.c: wr_cl_store_para_terms, wr_cl_store_para_subterms, wr_cl_store_eq_arg, wr_encode_para_termpath", "Reasoner/hash.c: wr_clterm_add_hashlist_withpath", "Reasoner/resolve.c: wr_paramodulate_from_all_active, wr_paramodulate_into_subterms_all_active"])
p("C36", "Typed values are told apart and lists taken apart as documented",
  "An equation computed to true or false has that truth value in every interpretation where different numbers, distinct symbols and lists are different; equations between such data are always decided; $first and $rest give the parts of a list; $is_list and $is_distinct tell the type.",
  "all pairs of terms, with variables and other symbols, and all interpretations of these",
  "Unbounded nesting of lists and all interpretations of the other symbols.",
  ["Reasoner/build.c: wr_compute_fun_equal, wr_compute_fun_equal_terms, wr_compute_fun_list, wr_compute_from_termptr", "html/index.html: Lists, Distinct symbols"])
p("C37", "Comparison of numbers agrees with their order",
  "$less, $lesseq, $greater and $greatereq of two numbers, integers or reals in any mix, are computed to the truth value of the comparison of their values.",
  "all pairs of numbers",
  "Conversions between 64-bit integers and doubles differ only at rare magnitudes.",
  ["Reasoner/build.c: wr_compute_fun_lesseq_core"])
p("C38", "String functions on distinct symbols",
  "$strlen is the length, $substr(A,B) is true just when A is a contiguous part of B, $substrat(A,B,C) just when A occurs in B at position C.",
  "all strings and positions",
  "Unbounded strings.",
  ["Reasoner/build.c: wr_compute_fun_str, wr_compute_fun_arith1"])
p("C39", "Index entries keep denoting the clause they were entered for",
  "A clause entered in the unit tables, the two-literal table, the queues or the active lists is read back with the same literals at any later moment, whatever clauses are derived, dropped, selected or simplified in between.",
  "every sequence of operations on the term buffers",
  "A pointer into a buffer that is emptied and used again goes wrong only after a particular later sequence of clauses.",
  ["Reasoner/rgenloop.c: wr_genloop, wr_process_given_cl_setupsubst", "Reasoner/derive.c: wr_add_cl_to_doublehash, wr_process_resolve_result", "Reasoner/subsume.c: wr_atom_doublecut_aux"])
p("C40", "A proof that is found means that the conjecture follows from the axioms",
  "When the prover reports a proof for a problem with axioms and a conjecture, every structure that makes the axioms true makes the conjecture true.",
  "all problems, all runs of the prover, all structures",
  "Logical consequence quantifies over all structures; a test can only compare verdicts on particular problems.",
  ["Parser/dbparse.c: wr_preprocess_tptp_fof_clause, wr_parse_clauselist, wr_parse_clause, wr_parse_atom, wr_parse_term, wr_parse_primitive", "Parser/dbclausify.c: wr_clausify_formula", "Reasoner/rgenloop.c: wr_genloop"])

p("C41", "Turning a problem into clauses loses nothing",
  "A problem of two-argument connectives whose symbols each have one role (constant, function, predicate, proposition), with integers below 2^31, no names of the form $sk<n> and $df<n>, and at most 999 variables in each formula, is accepted as a whole; if the conjecture follows from the axioms then the stored clauses are contradictory, and over structures with at least two elements the two are equivalent.",
  "all such problems, all structures",
  "Logical consequence and contradiction quantify over all structures; a clause lost on some formula shape shows only as a proof that is not found.",
  ["Parser/dbparse.c: wr_preprocess_tptp_fof_clause, wr_parse_freeoccs, wr_parse_clauselist, wr_parse_clause, wr_parse_atom, wr_parse_term, wr_parse_primitive", "Parser/dbclausify.c: wr_clausify_formula, wr_flatten_logclause"])

p("C42", "Objects of the variable-length storage area are separate and can be freed",
  "In a database after any sequence of object creations, frees and writes into objects: objects in use never overlap, lie inside the segment, are aligned and know their size; creating or freeing an object changes no other object; a free of an object in use succeeds and its space can be used again without growing the area.",
  "all sequences of wg_alloc_gints and wg_free_object calls on the data area, all sizes, all written contents, all segment sizes",
  "Corruption depends on the order of many allocations and frees and on which neighbouring blocks are free; it shows far from its cause.",
  ["Db/dballoc.c: wg_alloc_gints, wg_free_object, split_free, extend_varlen_area, init_area_buckets, init_subarea_freespace, freebuckets_index, wg_calc_suitable_used_bytes"])

p("C43", "Going through the records gives each record once",
  "wg_get_first_record and repeated wg_get_next_record give every data record that was created and not deleted exactly once and then NULL; the raw variants give also the special records. A new record is given, with empty fields; a record for which wg_delete_record returned 0 is not given any more.",
  "all sequences of creations, deletions and writes, all record sizes",
  "The walk goes over free blocks, markers and several subareas; every layout that a sequence of calls can leave behind has to be covered.",
  ["Db/dbdata.c: wg_get_first_record, wg_get_next_record, wg_get_first_raw_record, wg_get_next_raw_record, wg_create_raw_record, wg_delete_record", "Db/dballoc.c: wg_alloc_gints, wg_free_object"])

p("C44", "A write transaction excludes all other transactions",
  "Between a successful wg_start_write and the matching wg_end_write no other process is between a successful wg_start_write or wg_start_read and the matching end.",
  "any number of processes, all interleavings of their steps, all moments at which waiting ends by a wake-up, a time-out or a signal",
  "A violation needs a particular interleaving of three processes inside the lock functions.",
  ["Db/dblock.c: wg_start_write, wg_end_write, wg_start_read, wg_end_read, db_tfqueue_wlock, db_tfqueue_wulock, db_tfqueue_rlock, db_tfqueue_rulock, lock_queue, unlock_queue, alloc_lock, free_lock, futex_trywait, futex_wake"])

p("C45", "Locks are given in the order of the requests, and a free lock can be had",
  "A request for the lock is not served before an earlier request that still waits; when all locks were given back or given up, the first waiting request has the lock.",
  "any number of processes, all interleavings, including requests that are given up because of time",
  "The order of arrivals and the moment of a time-out cannot be controlled by a test.",
  ["Db/dblock.c: db_tfqueue_wlock, db_tfqueue_wulock, db_tfqueue_rlock, db_tfqueue_rulock, DEQUEUE_LOCK"])

p("C46", "A proof found through propositional instances is a proof, and no contradiction among the instances is lost",
  "With the strategies instgen and propgen every clause is turned into an instance in which one constant stands for all variables. A contradiction reported while the instances are made, or after the external solver found the written file unsatisfiable, means that the clauses of the prover are unsatisfiable; the file is a proper DIMACS file; the file is satisfiable exactly when the instances are; no memory outside the objects is read.",
  "all sequences of clauses, all choices of the constant for each of them, all hash functions; all interleavings of the solver calls of two processes",
  "The loss of instances depends on hash values, the stale read on a million atoms, the mixed-up files on a second process at the same moment.",
  ["Reasoner/prop.c: wr_cl_create_propinst, wr_make_get_propvar, wr_find_offset_prop_termhash, wr_equal_grounded_term, wr_make_prop_file, wr_prop_solve_current", "Reasoner/hash.c: wr_term_basehash", "Reasoner/glb.h: DEFAULT_PROP_FILE_NAME, DEFAULT_PROP_SOLVER_OUTFILE_NAME"])

p("C47", "Instance generation gives the instances of the parents by the unifier",
  "With the strategy instgen, after a resolution step two more clauses are made from the parents. Each follows from its parent, and each means the same as the instance of the parent by the most general unifier of the two literals.",
  "all pairs of clauses, all literals of them that unify, all evaluations of computable terms that are right",
  "A test sees a less general clause only as a proof not found.",
  ["Reasoner/derive.c: wr_process_instgen_result, wr_process_instgen_result_aux, wr_process_resolve_result_setupsubst", "Reasoner/resolve.c: wr_resolve_binary_all_active", "Reasoner/build.c: wr_build_calc_term"])

p("C48", "The proof listing shows the derivation",
  "When a proof is printed, every clause used is listed once, lines are numbered from 1, each line names the rule by which its clause was obtained and the clauses used with the numbers of their lines, all earlier, and the positions of the literals used. A reader who accepts the input clauses and each single line may accept the result.",
  "all derivations, all rules, any number of cutting clauses and positions",
  "The listing is read off packed history records; a wrong number or a lost premise shows only in a derivation of the right shape and has no effect on the verdict.",
  ["Reasoner/history.c: wr_flatten_history, wr_flatten_history_addcl, wr_strprint_one_history, wr_strprint_flat_history, wr_build_resolve_history, wr_build_para_history, wr_build_arithinst_history, wr_encode_history_para, wr_get_history_pos1", "Reasoner/derive.c: wr_process_paramodulate_result", "Reasoner/subsume.c: cut_clvec"])

p("C49", "JSON output is JSON",
  "In JSON mode the text written when a proof was found is a JSON text by the grammar of RFC 8259, and its one value is the object with the result and the list of answers, each with its clause and its proof: lines with number, rule with premises, and clause, where clauses are lists of lists with the sign in the name of the predicate.",
  "all proofs, all rules, all clauses, terms, names and print levels",
  "Whether the text parses depends on the rules used in the proof and on every character of every name; a missing comma or quote breaks the reader of the program using the prover, not the prover.",
  ["Reasoner/history.c: wr_show_result, wr_strprint_flat_history, wr_strprint_one_history, wr_strprint_history_extra", "Printer/dbotterprint.c: wr_strprint_clause, wr_strprint_rule_clause_otter, wr_strprint_fact_clause_otter, wr_strprint_atom_otter, wr_strprint_term_otter, wr_strprint_simpleterm_otter, wg_print_dquoted, wg_nice_strprint_var"])

p("C50", "Answers to questions are answers, each listed once",
  "When a problem contains a question with variables and the prover reports an answer $ans(t1) | ... | $ans(tn), then in every situation where the axioms are true one of the tuples makes a question true, unless a conjecture is true anyway. A proof without answer means that the axioms contradict each other (or a conjecture is true). Different answers are each listed once, keep their place, and the search stops exactly when as many different answers as asked for were found.",
  "all problems, questions, structures and runs of the loop; all sequences of answers",
  "An answer may follow from a derivation of any length and must be right in all models of the axioms; wrong answers appear only for particular mixes of disjunctive answers, signs and repeated proofs.",
  ["Parser/jsparse.c: question role (1184-1197)", "Reasoner/history.c: wr_register_answer, wr_enough_answers, wr_same_answers", "Reasoner/build.c: wr_answer_lit, wr_prop_truefalsity_clause", "Reasoner/derive.c: wr_cl_derived_is_answer", "Reasoner/rgenloop.c:345-354"])

p("C51", "Equal names have equal words",
  "Storing URIs, XML literals, blobs, strings with a language and long strings in a database, and after attaching it as a knowledge base in another one, is always defined; two of the words got are equal exactly when type, bytes and language, type or prefix are equal, in whichever of the two databases they were stored. A word decodes to what was stored however much is stored afterwards. Storing a name again gives the same word and changes nothing. Each stored URI is in the list of URIs once. The numbers of names in a database differ. Strings of less than 32 characters without language get a new word each time.",
  "all sequences of names, all lengths of the two hash arrays, all behaviours of the allocators",
  "The prover compares names by comparing words; a wrong answer needs names that fall into one chain of the hash table in a certain order, with prefixes stored recursively in between, or a name split between knowledge base and local database.",
  ["Db/dbdata.c: find_create_longstr, wg_encode_unistr, wg_encode_uri, wg_encode_uniblob, wg_decode_unistr, wg_decode_unistr_lang, wg_decode_unistr_len", "Db/dbhash.c: wg_hash_typedstr_sum, wg_find_strhash_bucket, wg_right_strhash_bucket", "Db/dbdata.h: encode_kb_offset, db_to_kb"])

p("C52", "Values are compared as what they stand for, and can be sorted",
  "WG_COMPARE on two values always gives an answer, also for records that contain each other. It says LESSTHAN, EQUAL or GREATER exactly when the first value is less than, the same as, or greater than the second: values of different types come in the order of the type codes, integers and doubles by their number, strings, URIs and XML literals by their prefix or type and then by their characters in dictionary order, blobs by their bytes, characters, fixed point numbers, dates, times and variables by their number, records by their length and then by the first fields that differ, to a depth of seven records. The answers for (a,b) and (b,a) agree and the order is transitive, so an index can be kept in it.",
  "all databases (what words stand for, fields of records) and all words for values",
  "An order that is not transitive, or that depends on which argument comes first, breaks an index only for certain triples of values; tests compare a few pairs.",
  ["Db/dbcompare.c: wg_compare", "Db/dbcompare.h: WG_COMPARE, WG_COMPARE_REC_DEPTH"])

p("C53", "A T-tree index has exactly the rows added and not removed, in order",
  "After any sequence of additions and removals of rows, a T-tree index has exactly the rows that were added and not removed, each as often as it was added, also when many rows have the same key. Read along the chain of nodes they come in the order of WG_COMPARE of their keys. The tree is balanced (the depths of two siblings differ by at most one), so its depth is at most about 1.44 times the logarithm of the number of nodes. Every operation ends and is well defined; a row that is in the index can be removed; an addition either succeeds or, if memory runs out, leaves the index unchanged.",
  "all orders of values, all sequences of additions and removals of rows, all outcomes of allocation",
  "Rows are lost or unreachable only after particular sequences that hit a double rotation of half-empty nodes, a merge of half-leaves or runs of equal keys over several nodes; tests try a few sequences.",
  ["Db/dbindex.c: ttree_add_row, ttree_remove_row, db_rotate_ttree, wg_search_ttree_rightmost, wg_search_ttree_leftmost, create_ttree_index"])

p("C54", "A query gives exactly the records that satisfy its conditions",
  "wg_make_query and wg_make_query_rc with any match record and any list of conditions (EQUAL, NOT_EQUAL, LESSTHAN, GREATER, LTEQUAL, GTEQUAL on columns) give a query from which wg_fetch returns every record that satisfies all of them exactly once, and no other, and then NULL for ever. It makes no difference which indexes there are. With a row limit the first rows up to the limit are given. res_count is the number of rows. wg_find_record, called with NULL and then with the record it returned last, goes through exactly the records that satisfy the condition.",
  "all databases, orders of values, sets of T-tree indexes with and without templates, match records, condition lists and limits",
  "Whether rows are lost or added depends on where runs of equal keys begin and end in the nodes of the index, on which of several bounds is tighter, and on which index is chosen; tests use a few small tables.",
  ["Db/dbquery.c: most_restricting_column, check_arglist, prepare_params, find_ttree_bounds, internal_build_query, wg_fetch, wg_find_record", "Db/dbindex.c: wg_match_template"])

p("C55", "Indexes stay current",
  "After any sequence of wg_create_record, wg_create_triple, wg_create_array, wg_create_object, wg_set_new_field, wg_set_field, wg_delete_record, wg_create_index and wg_drop_index every T-tree index has exactly the records that have its column and match its template, each once and under the value the column has now.",
  "all sequences of calls, records of any length, indexes on any columns with and without templates",
  "An index goes wrong only for some orders of creation, change and deletion and some relations between templates, columns and keys; a test sees the table it makes, not what an index would give later.",
  ["Db/dbindex.c: wg_index_add_rec, wg_index_del_rec, wg_index_add_field, wg_index_del_field, wg_match_template, create_ttree_index", "Db/dbdata.c: wg_create_record, wg_set_field, wg_set_new_field, wg_delete_record", "Db/dbschema.c: wg_create_triple, wg_create_array, wg_create_object"])

p("C56", "JSON formulas mean what they say",
  "A formula in the list notation of JSON-LD-LOGIC (atoms, negated atoms, propositions, equalities in either order, arithmetic terms, not, and, or, =>, <=, <=>, <~>, ~|, ~&, lists of literals, quantifiers, if-then) is accepted, and what reaches the clausifier is true in exactly the interpretations in which the formula is true by the documentation; its free variables are universal, a question is negated, and a question with free variables implies the answer literal for their values.",
  "all formulas of any size and nesting, all interpretations, all roles",
  "The notation is read by guessing from the strings in a list what kind of list it is; parts are processed more than once; a test sees single formulas, and a wrong nesting or a symbol stored in another way shows only as a proof that is missing or too many.",
  ["Parser/jsparse.c: wr_process_json_formula, wr_process_json_formula_aux, wr_process_json_term, wr_json_unflatten_logic, wr_json_process_if_then, wr_json_list_logconn, wr_json_translate_connective, wr_json_is_varlist", "Doc/json_ld_logic.md"])

p("C57", "JSON problems: proofs and answers follow from the file",
  "If a file in the JSON list notation with axioms, conjectures and questions is read, turned into clauses and the prover reports a proof, then in every structure in which all its axioms are true, as the documentation of the notation says, some conjecture or question without variables is true. If it reports an answer, the terms of one of the answer literals are values of the variables of a question that make the question true. Every file of the language is read.",
  "all problems of the language, all structures with at least two elements, all clausifications and runs",
  "Reader, clausifier and prover each have their own encoding of names, variables and answers; a fault in one of them that is harmless alone can make the whole unsound, and a test gives one problem and no other structure.",
  ["Parser/jsparse.c: wr_process_json_formula, wr_process_json_formula_aux, wr_process_json_term", "Parser/dbparse.c:932-937, wr_preprocess_tptp_fof_clause", "Parser/dbclausify.c: wr_clausify_formula", "Reasoner/rgenloop.c: wr_genloop", "Reasoner/derive.c: wr_process_resolve_result"])

p("C58", "Proofs and answers with arithmetic follow from the problem",
  "If a problem with arithmetic (sums, differences, products, negatives, comparisons, type tests and the other computable functions on numbers, distinct symbols and lists) is turned into clauses and the prover, which computes while it derives, reports a proof, then in every structure in which the axioms are true and the numbers are added, multiplied and compared as usual, some conjecture is true. An answer that is reported is true of a question in every such structure.",
  "all problems that use each symbol in one role, all structures with ordinary arithmetic, all clausifications and runs",
  "The computations are made in the middle of building, copying and rewriting, on terms that were put together by unification; a test sees that 1+2 gives 3, not that no derivation is spoiled by an overflow, a comparison of an integer with a double, or the name of a symbol.",
  ["Reasoner/build.c: wr_computable_termptr, wr_compute_from_termptr, wr_compute_fun_arith1, wr_compute_fun_arith2, wr_compute_fun_equal, wr_compute_fun_lesseq_core, wr_compute_fun_str", "Reasoner/simp.c: wr_simplify_cl", "Reasoner/rgenloop.c: wr_genloop", "Parser/dbclausify.c: wr_clausify_formula"])

p("C59", "A dump can be restored, and a damaged dump is refused",
  "When wg_dump returns 0, the file it wrote is accepted by wg_check_dump, and wg_import_dump brings the same database into any segment that is large enough, with nobody holding the lock. A file that was cut off, extended, or changed within four bytes in a row is refused.",
  "all databases, all segments that are loaded into, all changes, other processes reading and writing while the dump is made",
  "The checksum runs over megabytes in pieces, and that no change of any four bytes anywhere leaves it the same is a statement about all images; what a process that comes between computing the checksum and writing the file does is seen only in runs that no test can order.",
  ["Db/dbdump.c: wg_dump_internal, wg_check_dump, wg_import_dump", "Db/crc1.h: update_crc32, crc_table", "Db/dbmem.c: wg_check_header_compat", "Db/dblock.c: wg_init_locks, lock_queue", "Main/gkc.c: -writekb, -loadkb"])

p("C60", "A problem converted to JSON says the same",
  "gkc -convert -json turns a problem in the language of TPTP into a JSON text with one object for each formula, in the order of the input, with its name and role; the value under @logic, read back by gkc, is true in exactly the structures in which the formula is true, its free variables taken as universally quantified.",
  "all problems, all formulas of any depth, all structures, whatever the printing buffer contained",
  "That a printed formula means the same is a statement about all structures, and names, quotes, free and bound variables, negations and nesting combine without limit; a converted file that is accepted by a JSON parser can still say something else.",
  ["Printer/dbotterprint.c: wg_print_frm_json, wg_print_subfrm_json, wg_print_dquoted, wg_list_is_term, wg_str_guarantee_space", "Parser/dbparse.c: wr_preprocess_clauselist, wg_expand_frm_for_print", "Parser/dbotter.y", "Parser/jsparse.c: wr_process_json_list"])

p("C61", "A search that ends without a proof has shown that there is none",
  "For a problem without equality and arithmetic: if the main loop runs out of clauses without having found a proof and without having thrown away a derived clause for its size or weight, then there is a structure in which all input clauses are true, so the conjecture does not follow from the axioms. If the loop ends with a proof, there is no such structure. So two runs with different picking orders, hash functions and limits never contradict each other.",
  "all problems, all orders of picking clauses, all hash functions and sort functions, all limits, runs of any length",
  "Completeness is about all problems and about what was not derived: a resolution partner missed by the index, a factor that is not tried, or a clause dropped as subsumed by mistake makes the loop end early on some problems only, and the end of the search looks the same as for a satisfiable problem.",
  ["Reasoner/rgenloop.c: wr_genloop, wr_process_given_cl, wr_add_given_cl_active_list", "Reasoner/resolve.c: wr_resolve_binary_all_active, wr_factor", "Reasoner/derive.c: wr_process_resolve_result, wr_process_factor_result, wr_derived_weight_check, wr_add_cl_to_unithash, wr_add_cl_to_doublehash", "Reasoner/subsume.c: wr_given_cl_subsumed, wr_active_subsumed_lit", "Reasoner/simp.c: wr_simplify_cl", "Reasoner/clstore.c"])
p("C62", "A fair search finds every proof",
  "For a problem without equality and arithmetic: if the clauses cannot all be true, every clause put in the queue is picked sometime, no round fails for want of memory and no derived clause is thrown away for its size or weight, then the main loop finds a proof after finitely many rounds. It is enough that the oldest clause is picked again and again, whatever is picked in between, as the ratio of the picking queues makes it.",
  "all problems, all orders of picking that are fair, all hash and sort functions, which may change from round to round; endless runs",
  "A test that ends without a proof within its time limit does not tell whether the proof would have come later. That no problem has a proof which is never found is a statement about endless runs.",
  ["Reasoner/rgenloop.c: wr_genloop", "Reasoner/clstore.c: wr_pick_from_clpick_queues", "Reasoner/resolve.c: wr_resolve_binary_all_active, wr_factor", "Reasoner/derive.c: wr_process_resolve_result, wr_process_factor_result", "Reasoner/subsume.c: wr_given_cl_subsumed", "Reasoner/simp.c: wr_simplify_cl"])
p("C63", "Choosing literals to resolve upon loses no proofs",
  "The strategies knuthbendix_pref, negative_pref, positive_pref and hardness_pref allow only some literals of each clause to be resolved upon. For a problem without equality and arithmetic this loses no proofs: a search that ends without a proof and without having thrown away a clause shows that the clauses can all be true, and a search that picks the oldest clause again and again finds a proof if there is one. With knuthbendix_pref exactly the literals are chosen for which no literal of the clause has a bigger atom; with negative_pref or positive_pref one hardest literal of the sign is chosen in a clause that has both signs.",
  "all combinations of the strategies, all problems, all orders of picking, all numberings and addresses of constants, all occurrence counts",
  "A choice of literals that is not safe makes the search end early or run for ever on some problems only, depending on the order in which constants were created and how often they occur. Running examples does not tell a lost proof from a problem without one.",
  ["Reasoner/strat.c: wr_calc_clause_resolvability, wr_calc_atom_hardness, wr_order_atoms_lex_order, wr_order_atoms_const_lex_smaller", "Reasoner/resolve.c: wr_resolve_binary_all_active, wr_factor", "Reasoner/clstore.c: wr_cl_store_res_terms"])
p("C64", "The filter on input clauses loses no proofs",
  "With a strategy \"sine\":1 to \"sine\":5 only a part of the input clauses is used. The filter always ends; the clauses used are input clauses, so a proof from them is a proof from the input; goals are always among them; exactly those other clauses are used that are triggered by a symbol connected with the goals over triggered clauses, or have only common symbols; and if the axioms can all be true and the input cannot, then the clauses used cannot all be true, that is, a proof is left to be found.",
  "all strategies, all clauses and numberings of clauses and symbols, all numbers of occurrences",
  "Which clauses are dropped depends on counts over the whole problem, on the order of clauses and on limits. A dropped clause that was needed shows only as a search without a proof, which looks the same as a problem without one.",
  ["Reasoner/analyze.c: wr_analyze_sine, wr_sine_check_trigger_cl, wr_sine_check_trigger_term, wr_get_clause_symbols", "Reasoner/rmain.c: wr_init_active_passive_lists_from_one"])
p("C65", "A record keeps the values stored in it",
  "A field shows what was last stored in it, whatever is done with other records and values: creating, storing and deleting elsewhere changes nothing in it, and every field of a record can be read. wg_set_field and wg_set_new_field return 0 and store the value. wg_delete_record returns -1 and changes nothing if a record refers to the record, otherwise 0, and then nothing but the record is gone. wg_free_encoded leaves a string alone that is in use. The loop over wg_get_first_parent and wg_get_next_parent gives every record that refers to a record once.",
  "all sequences of calls, all values, all offsets the allocator may give out, both ways of compiling (with and without QUICK_REASONER)",
  "Strings are shared between records and freed places are given out again, so a wrong count of references shows in another record, after an unrelated string has been stored, if at all. Which sequence of calls does this cannot be found by trying some.",
  ["Db/dbdata.c: wg_create_record, wg_create_raw_record, wg_delete_record, wg_set_field, wg_set_new_field, wg_free_encoded, free_field_encoffset, find_create_longstr, wg_get_first_parent, wg_get_next_parent", "Db/dbdata.c:84 QUICK_REASONER"])
p("C66", "A formula is read as it is written",
  "A file of first-order formulas in TPTP syntax is accepted, and the parser makes exactly the statements of which the text is written: with their kind, name and role, and with the formula that the rules of TPTP give for the text, whatever the layout, the comments, the nesting and the order. A text that cannot be read by the rules is an error: no part of it is left out, and no part of another statement takes its place.",
  "all files, all formulas of any depth, all names, all layouts and comments",
  "The scanner and the parser are tables with hundreds of entries that a generator made from a grammar with many conflicts; what a text is read as depends on states reached after any prefix, on what follows without a blank, and on what was left on the stack by statements before. A wrong reading is silent: the prover answers for another problem.",
  ["Parser/dbotter.l", "Parser/dbotter.y", "Builtparser/dbotter.yy.c: yylex", "Builtparser/dbotter.tab.c: yyparse", "Parser/dbparse.c: wr_import_otter_file", "Parser/dbgenparse.h"])
p("C67", "What is proved from a TPTP file follows from what the file says",
  "If the prover reports a proof for a file in TPTP syntax, the conjecture of the file follows from its other statements, read by the rules of TPTP. Every statement is used: it reaches the prover as a formula with the same meaning, as a conjecture exactly if it is one, and if the conjecture follows, the clauses that the prover gets are contradictory.",
  "all files, all formulas, all structures with at least two elements, all orders of picking, all strategies of clausification",
  "Between the text and the answer are the scanner, the parser, the sorting of statements by kind and role, the clausifier, the building of clauses and the search. A statement that is dropped, taken for another kind or given another meaning at any of these changes the answer for some files only, and a wrong proof looks like a right one.",
  ["Builtparser/dbotter.yy.c: yylex", "Builtparser/dbotter.tab.c: yyparse", "Parser/dbparse.c: wr_preprocess_clauselist, wr_preprocess_tptp_fof_clause, wr_preprocess_tptp_cnf_clause, wr_is_tptp_fof_clause, wr_is_tptp_cnf_clause", "Parser/dbclausify.c: wr_clausify_formula", "Reasoner/rgenloop.c: wr_genloop"])
p("C68", "A problem in several files is read as if it were in one",
  "A file with include statements is read as the text in which each included file stands in the place of its statement, to any depth: every statement of every file reaches the prover once, with its meaning and as conjecture exactly if it is one, and a proof is reported exactly if a conjecture follows from all statements together. A file named in an include statement is found from the folder of the file that includes it, or else in the folder for axioms; if it cannot be found this is an error.",
  "all problems in any number of files in any folders, included to any depth, all formulas, all structures with at least two elements",
  "Reading a file inside another uses the same global state (current file, error flag, counters, the list of statements). Whether something is lost depends on the order of includes, on the folders and on what was read before; a lost axiom shows only as a proof that is not found, or as an answer that a conjecture does not follow.",
  ["Parser/dbparse.c: wr_import_otter_file, wr_preprocess_clauselist, wr_process_tptp_import_clause, wr_is_tptp_import_clause"])
p("C69", "The SZS status of a proof is the right one",
  "The word that is printed after SZS status together with a proof says what was shown: Theorem if the problem has a conjecture and it follows from the other statements, Unsatisfiable if it has none and the statements contradict each other.",
  "all problems in any number of files, all proofs",
  "The word comes from a flag that is set while fof statements are read and reset when a file is opened, long before a proof is found; whether it is right depends on the kinds, roles, files and order of all statements.",
  ["Reasoner/history.c: wr_show_result", "Parser/dbparse.c: wr_import_otter_file, wr_preprocess_tptp_fof_clause", "Reasoner/rmain.c", "Reasoner/analyze.c"])

p("C70", "A hash index gives exactly the rows with the given values",
  "After any sequence of rows added to a hash index and removed from it, a search for some values gives exactly the rows that are in the index and have these values in the indexed columns, and no operation on a row that is there fails. In an index for JSON a column that holds an array counts as having each of its members.",
  "all sequences of additions and removals, all rows and values of any number of columns, all array members, all table sizes",
  "Rows with other values must not be given although they share a chain of the table or have similar bytes; whether the bytes of several values joined together can be told apart is a question about all values, and a removal must leave the rest of a chain intact in every state of it.",
  ["Db/dbhash.c: wg_decode_for_hashing, find_idxhash_bucket, wg_idxhash_store, wg_idxhash_remove, wg_idxhash_find", "Db/dbindex.c: hash_add_row, hash_remove_row, hash_recurse, hash_extend_prefix, wg_search_hash"])
p("C71", "A query for JSON documents gives exactly the documents with all the pairs",
  "A query with some pairs of a key and a value gives exactly the documents in which each of the pairs occurs at some place (a value also counts where it is a member of an array), each document once, and the result is the same whichever indexes exist.",
  "all databases of records, all documents in them, all lists of pairs, all combinations of indexes, all sizes of the intermediate sets",
  "Depending on the indexes and on the sizes of the sets five different ways of searching and two ways of joining are used; that they agree for all databases, and that the open addressing of the key table finds every key at every fill level, is not a matter of samples.",
  ["Db/dbquery.c: wg_make_json_query, intersect_resultset, unique_resultset, check_and_merge_by_kv, check_and_merge_by_key, check_and_merge_recursively, prepare_json_arglist", "Db/dbschema.c: wg_find_document, find_document_recursive", "Db/dbhash.c: wg_dhash_init, wg_dhash_addkey, wg_dhash_haskey, dhash_lookup"])
p("C72", "The table that translates offsets gives the value last added for a key",
  "After any sequence of additions to the growing hash table, a search for a key gives the value that was last added with the key, and gives nothing for a key that was not added; an addition fails only if there is no memory. When a log is replayed, every offset is translated to the one its data has now and other offsets are left alone.",
  "all sequences of additions of any length, all keys and values, all states of the directory and its buckets",
  "The directory shares buckets between many places, and a split has to redirect exactly half of them at every combination of local and global levels; the interesting states need many keys with particular hashes.",
  ["Db/dbhash.c: wg_ginthash_init, wg_ginthash_addkey, wg_ginthash_getkey, grow_ginthash, ginthash_splitbucket, rehash_gint", "Db/dblog.c: add_tran_offset, translate_offset"])
p("C73", "All runs of a strategy are tried, each with its own settings",
  "For a strategy with a list of runs, every run is made exactly once, in the order of the list within each of the parallel processes, until a search gives a proof, and no other search is made. Each search has the settings of its run; where the run says nothing it has the settings outside the runs, and the defaults where these say nothing either; of settings given several times the last counts, and the names under strategy switch on what they name. The result is a proof exactly if one of the searches gave one.",
  "all strategies (any settings before and after the list, any number of runs, any settings in them), any number of processes, any results of the searches",
  "Tests use a few strategy files; the number of runs, the number of processes and the positions of the settings combine, and one particular number of runs is taken for something else.",
  ["Reasoner/guide.c: wr_parse_guide_section, wr_parse_guide_strategy, wr_parse_guide_strategy_set", "Reasoner/rmain.c: wg_run_reasoner (loop over the runs)", "Doc/strategy_reference.md", "Examples/README.md"])
p("C74", "The strategy made for a problem without one fits into its memory and all of it is tried",
  "If no strategy is given, one is made from the numbers of clauses of the problem. Whatever the problem is, the text of the strategy fits into the memory reserved for it, there is at least one run in it and it is not taken for a sequence, so that all its runs are made if no proof is found; the runs are repeated with more time each time.",
  "all numbers of clauses, unit clauses, equations, goals, assumptions and axioms, in the file and in the shared database",
  "The text is written by some nine hundred calls of sprintf without a check of the size, under conditions on the numbers of clauses; the longest text needs a particular combination and is within seven percent of the size of the memory.",
  ["Reasoner/analyze.c: make_auto_guide", "Reasoner/makeguide.c: make_guide", "Reasoner/rmain.c: wg_run_reasoner"])

p("C75", "The strategy is made from numbers that are true of the problem and of the shared database together",
  "If no strategy is given, the program counts the clauses of the problem by their kind: facts and rules, ground, unit and Horn clauses, positive and negative ones, those with equations, goals, assumptions and axioms, and finds the least and greatest length, depth, size and number of variables. The numbers it uses are right for the clauses of the file and of the shared database together. In particular the rules for equality are left out just if there is no equation in any clause, and the problem is treated as one of unit equations just if all clauses are.",
  "all lists of clauses in the file and in the shared database, of any length",
  "A wrong number makes the search leave out rules without a message: without the rules for equality a problem with equations is not solved. It depends on clauses in two databases and on any mixture of kinds of clauses.",
  ["Reasoner/analyze.c: wr_analyze_clause_list, wr_analyze_clause", "Reasoner/analyze.c: make_sum_input_stats", "Reasoner/analyze.c: make_auto_guide"])

p("C76", "The occurrences of each symbol are counted",
  "While a problem is looked through, it is counted for each symbol how often it occurs in positive and how often in negative literals. Both numbers are kept in one integer, and the choice of literals by their hardness depends on them. At the end each number is right, up to a fixed limit, whatever the order of the occurrences, and the number for one sign does not disturb the one for the other.",
  "all lists of clauses with terms of any depth, all symbols",
  "The numbers share the bits of one integer, so that an overflow of one changes the other; that needs tens of thousands of occurrences, and the effect is a different order of literals without any message.",
  ["Reasoner/analyze.c: wr_analyze_term, wr_analyze_clause", "Reasoner/analyze.h: URI_COUNT_POSCOUNT_SHIFT, URI_COUNT_NEGCOUNT_MASK", "Db/dbdata.c: wg_set_uri_count, wg_decode_uri_count", "Reasoner/strat.c: hardness of literals"])

out = os.path.join(os.path.dirname(os.path.abspath(__file__)), "..", "properties.jsonl")
with open(out, "w") as f:
    for x in P:
        f.write(json.dumps(x) + "\n")
print(len(P))
