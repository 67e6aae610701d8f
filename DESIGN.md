# Formal model of GKC: design

`/repo` (tammet/gkc) is a first-order resolution prover built on a modified WhiteDB
shared-memory database.  The model is written in Lean 4 from reading the C source; the C
code is never built or run here.  Every definition in `lean/Verif/` carries a comment with
the file and lines it models and any simplification made.

## 1. Trusted base

* Lean 4.33.0's kernel; Mathlib (checked by the same kernel).
* Axioms: no axioms are added.  Each property theorem depends on at most `propext`,
  `Classical.choice`, `Quot.sound` (`lean/Verif/Audit.lean` prints them).
* The reading of the C code.  Where a C construct has undefined behaviour that a reachable
  input can trigger, the model has a separate outcome for it rather than a default value.
* Build configuration modelled: `config.h` for Linux (64-bit `gint`, `LOCK_PROTO 3`,
  T-tree with chained nodes, no `CHECK`, no child databases, `QUICK_REASONER` in
  `Db/dbdata.c`, unique strings on, term metadata off).

### Not modelled (by area)

* lexers/parsers generated by flex/bison, printing, command line, file access;
* strategy selection heuristics (which literals/clauses to try, time limits): where a
  theorem depends on such a choice it is universally quantified over;
* floating point (`double`) arithmetic: appears only as an opaque value type, or as an exact
  rational where noted;
* OS shared memory, process death, memory ordering weaker than sequential consistency.

## 2. Properties, model and proofs

Every property has its theorems in `lean/Verif/Props/`; models and lemmas are beside it.

| id | model and lemma modules | theorems in | what is modelled and how it is proved |
|----|------------------------|-------------|----------------------------------------|
| C01-C03 | `Encode` | `Encode` | field words as `BitVec 64`; encoders/decoders/`wg_get_encoded_type` with the same masks and shifts; round-trip and tag theorems for all payloads; negations with witnesses where a range is mishandled |
| C04-C05 | `Calendar` | `Calendar` | integer functions over `Int` copied operation by operation; round trip for all dates/day numbers (no bound on the year); independent spec of the Gregorian calendar by day-successor |
| C06-C09 | `Term`, `Unify`, `UnifyLemmas` | `Props/Unify` | terms as constant/variable/record trees, bindings as an array with a trail; equality, one-way matching, unification with occurs check as in the code; termination measure; most general unifier; undo restores |
| C10-C12, C34 | `Meta`, `MetaLemmas`, `Subsume`, `SubsumeLemmas`, `ClauseMetaLemmas` | `Props/Subsume`, `Props/ClauseMeta` | literal and clause summaries bit by bit; admissibility of the filters; the backtracking search of `wr_subsume_cl_aux`; equivalence with existence of a substitution and an injective literal map; sort is a descending permutation |
| C13-C16 | `Sem`, `Derive`, `DeriveLemmas`, `ParaLemmas` | `Props/Derive` | Tarskian semantics of clauses; resolution, factoring, equality reflexivity, paramodulation return consequences |
| C17 | `StrongDup` | `Props/StrongDup` | elimination of duplicate literals |
| C18 | `Cuts` | `Props/Cuts` | literal cuts by unit clauses |
| C19-C20 | `Rewrite`, `RewriteLemmas` | `Props/Rewrite` | demodulation is sound; it terminates |
| C21 | `Order`, `OrderLemmas` | `Props/Order` | the `wr_order_eqterms` family; order laws (constants stand for their words) |
| C22-C23 | `Queue` | `Props/Queue`, `Props/Fair` | array queues with explicit indices; refinement to a multi-queue; fairness for infinite histories |
| C24, C35 | `Index`, `ParaIndex` | `Props/Index`, `Props/ParaIndex` | prefix hashes and buckets; retrieval is complete |
| C25 | `Vec` | `Props/Vec` | heap-block vectors with explicit out-of-bounds outcome; refinement to lists |
| C26 | `Frm`, `Clausify` | `Props/Negpush` | formulas with named variables; pushing negation in |
| C27 | `FrmLemmas` | `Props/Miniscope` | moving quantifiers in |
| C28 | `SkolemLemmas` | `Props/Skolem` | Skolem terms; new meanings of the Skolem names by choice |
| C29 | `Distribute`, `DistLemmas`, `DistEnds` | `Props/Distribute` | distribution with definitions, end of recursion by clause counts, flattening |
| C30 | `Build`, `BuildLemmas` | `Props/Build` | renaming builder with counter; variant and freshness |
| C31 | `Arith` | `Props/Arith`, `Props/ArithSem` | checked 64-bit arithmetic; an interpretation over terms makes all computing true |
| C32 | `Arith` | `Props/ArithDiv` | division laws; doubles as rationals with IEEE rounding, error bound of one rounding |
| C36-C38 | `Arith` | `Props/ArithData` | typed interpretations; comparison by value; strings as lists |
| C33 | `Saturate` | `Props/Roles`, `Props/Saturate` | nondeterministic step relation whose steps call the modelled inference, simplification and rewriting functions; invariant over all runs: everything kept or indexed is true wherever the input is and keeps to the symbol roles |
| C39 | `DoubleStore` | `Props/DoubleStore` | buffers as arrays with a next position, index entries as pointers; invariant over all operation sequences |
| C40 | `Clausal` | `Props/ClausalRoles`, `Props/Clausal` | composition of C26-C29, clause building and C33: every pass keeps to the roles of symbols, and a structure for the formulas is changed only on new symbols into one for the clauses |
| C41 | `Clausal` | `Props/ClausalBack` | converse of C40 for the clausifier: the back directions of C26-C29, values for clause variables from values of names (variables are told apart by strings), totality of every pass |
| C42 | `Alloc` | `AllocLemmas`, `AllocInv`, `AllocRun`, `Props/Alloc` | invariant: a ghost map tiles every subarea with used, free, designated-victim and marker blocks, free lists are exactly the free blocks of their bucket; every list operation, split, extension and merge keeps it; induction over runs |
| C43 | `Records` | `Props/Records` | the walk visits the blocks of the tiling in order, crossing free blocks and subarea ends; induction on the distance to the end |
| C44 | `Lock` | `LockInv`, `LockOps`, `Props/Lock` | small-step model of any number of processes, each store in a queue section is a step; invariant on the memory at the end of the running section: the queue is a list of a served part and a waiting part, the served part is one node or only readers; counterexample run of three processes |
| C45 | `Lock` | `Props/Lock` | same invariant with the list of arrivals as history |
| C46 | `PropInst` (spec in `PropSpec`) | `PropInstLemmas`, `Props/PropInst` | invariant on the table of atoms: a number stands for one ground instance; values are units of the file; truth is carried over in both directions |
| C47 | `InstGen` | `InstGen`, `Props/InstGen` | the builder started from any bindings gives the instance by every substitution that agrees with the bindings in the end |
| C48 | `History`, spec `HistSpec` | `HistLemmas`, `Props/History` | invariant of the depth-first numbering (numbered clauses without repetition, premises before); the fields of each kind of record decoded; the reader by induction on line numbers |
| C49 | `Json`, spec `JsonSpec` (grammar of RFC 8259 as a relation) | `JsonLemmas`, `JsonRead`, `Props/Json` | characters up: digits, strings, terms by mutual induction, items, lines, document; one value by a complete reader; refutations by a scanner which accepts every JSON text |
| C50 | `Answers` (on top of `Clausal`, `Saturate`, `Vec`) | `Props/Pure`, `Props/AnsPos`, `Props/Answers` | `$ans` is given the meaning 'satisfies a question', the formulas stay true, C33 and C40 carry over; signs of `$ans` by following the answer atom through the clausifier and by an invariant of the loop; registration as a reference list; parity of the vector length |
| C51 | `StrHash` | `Props/StrHash` | invariant: a list of (place, name), newest first, whose part for a slot is the chain of that slot; the recursive storing of the prefix adds at most one entry, which the outer one may cut off; attaching keeps the words |
| C52 | `Compare`, `CompareLemmas` | `Props/Compare` | the comparison is shown to be the lexicographic order of keys (type, prefix, characters, number) followed by the fields, by induction on the depth; the order laws come from the library; the meaning of less and equal is a separate recursive definition |
| C53 | `TTree`, `TTreeLemmas`, `TTreeOps`, `TTreeRemove` | `Props/TTree` | the tree is a tree of nodes with a chain of names; an invariant (order, bounds, heights, balance, chain is the traversal) is kept by every step: rotations including the special ones, insertion, removal with borrowing and merging; by induction over the sequence of operations |
| C54 | `Query`, `QueryLemmas`, `QueryBounds` | `Props/Query` | the places the search finds are shown to be cuts of the ordered rows, so the cursor runs through a filter of them; the folded bounds are shown equivalent to the conditions on the column, and a template that fits to be implied by them; the choice of the index matters only through these two facts |
| C55 | `IndexHooks` | `Props/IndexHooks` | an index is the bag of its rows with the keys they were added under; the rounds of the hooks over the columns are summed up, which gives one addition without and two with a template; by induction over the calls indexes are current exactly as long as no call does harm |
| C56 | `JsLogic`, `JsLogicSpec`, `JsLogicLemmas`, `JsLogicRun` | `Props/JsLogic` | the notation is a datatype of its own with a printer to JSON and a meaning; by induction over formulas the mutually recursive functions give, from some fuel on, a list that reads as a formula with the same meaning; if-then processes its own output again, for which the output is shown to be stable up to the way heads are stored |
| C57 | `JsLogic`, `Clausal`, `Answers` | `Props/JsAdm`, `Props/JsProblem` | the uses of names are read off the specification; by induction what the reader makes keeps to the roles, so the theorems of C50 apply; a structure for strings gives one for the symbols, and truth is carried over in both directions |
| C58 | `Arith`, `Saturate`, `Clausal`, `Answers` | `Props/EvalRun`, `Props/Calc`, `Props/CalcCases` | every step of a run meets only terms that keep to the roles, so the run is also one with an evaluation restricted to these (induction on the run); a structure in which the computed facts are true gives one domain for terms and truth values that fits this evaluation; then C33; ordinary arithmetic implies the computed facts by cases on the functions |
| C59 | `Dump`, `DumpLemmas` | `Props/Dump` | segments and files are lists of bytes; the nine highest bits of the result of a checksum step determine the lowest byte and the sign before (table checked entry by entry), so steps are injective and four bytes in a row can be read back from the state; then byte by byte |
| C60 | `Convert`, `ConvertSpec`, `ConvertLemmas` | `Props/Convert` | the grammar's lists are a function of the formula; the text is in the JSON grammar of C49 and its value is the list of a formula of JSON-LD-LOGIC (induction on terms and formulas with the bound variables); C56 gives the meaning of that, and a coincidence lemma the universal closure; the buffer is a list of characters up to a zero byte |
| C61 | `Loop` (the loop as a function), `Complete` (resolution: saturated sets have models), `LoopLemmas`, `LoopInv`, `LoopSound` | `Props/Complete` | invariant: every instance of an input clause, of a known unit, of a resolvent or factor of active clauses is a tautology or contains an instance of a clause of the queue or an active clause that is not longer; when the queue is empty the active clauses are saturated, and a model is built along a well-order of the atoms; the other direction is an invariant on truth in a given structure; C24, C30, C13, C14, C18, C11 are used for index, copying, inferences, cuts and subsumption |
| C62 | `LoopFair` (endless runs) | `Props/Complete` | in an endless run each clause of the queue is picked and then active for ever or contained in a clause that is not longer; the clauses that become active form a saturated set, which has a model by the argument of C61; a clause at place n of the queue is at a smaller place whenever the oldest has been picked |
| C63 | `Strategy` (wr_calc_clause_resolvability, hardness, order of atoms), `StrategyLemmas` | `Props/Strategy` | the order of C21 is extended to a well-order of the ground atoms; resolution with literals chosen maximal in it, or by sign, still gives saturated sets with models (`Complete.Choice`), and the choice does not depend on the names of variables; only the constants that occur in the problem matter, because most general unifiers bring in no others (`over_mgu`); the loop of C61 and C62 takes the choice as a parameter; witnesses for hardness_pref alone and for constants that compare in a circle |
| C64 | `Sine` (wr_analyze_sine and the skipping of clauses), `SineLemmas` | `Props/Sine` | distance of symbols from the goals is an inductive relation; the two tables are shown to hold at least and, unless the limit is reached, at most the distances (loop invariants); symbols are handled in the order of distance, so a clause is triggered once and the number of triggers is at most that of clauses; models of two problems without a common predicate are put together from the two structures on terms |
| C65 | `Fields` (records, fields, counts of references, back links, deletion), `FieldsLemmas` | `Props/Fields` | what should happen is a relation on what the fields show (`Does`); the invariant counts the uses of every string, object and record in the fields and compares them with the count of references and with the chain of parents (both zero with QUICK_REASONER); freeing one use keeps it, so the loop of wg_delete_record is an induction over the fields; offsets of new objects are arbitrary, so freed places can be used again |
| C66 | `Scan` (flex tables and actions), `Parse` (bison tables, actions, stacks), `ParseSpec`, `ScanLemmas`, `ParseLemmas` | `Props/Parse` | how formulas are written is a grammar of its own, after that of TPTP, with the number of places needed on the stacks; for every phrase of it the automaton goes from any state that expects it, over any stack, to the state after it with the right value on top (induction on the grammar; facts on the tables by evaluation, also for all tokens that can follow); values above the top of the stack are kept, as the code does; tokens are recognised by walking through the states of the scanner with classes of characters; the list determines the meaning by induction on formulas without the derived connectives |
| C67 | `Problem` (statements to formulas), and the models of C66, C40, C33, C61 | `Props/Problem`, `Props/ProblemSearch` | how names are used (constant, function, predicate, in quotes or not) is collected from the formulas of the specification, and roles are a condition on these uses; the list of the parser is shown to be read as a formula of the clausifier by induction on formulas; truth in a structure for the names of the file and in the structure for the symbols of the prover agree by induction, for any two structures that agree on the uses, which serves both directions; admissibility for C40 and C41 follows from the uses; the proofs of C40 and C41 are extended by clauses that are flattened as they are (`cnf`); `Props/ProblemSearch` puts this together with C61 and C62 |
| C68, C69 | `Include` (files inside files: the folder in which a name is looked for, the global file name and flags, the status word), and the models of C66, C67 | `Props/Include` | the problem with the included files in their places is an inductive relation on lists of statements, with a set of folders from which names lead to the same file; the loop over the statements of a file is shown to hand on the expanded list by induction on that relation, with the invariant that the current file lies in one of the folders; that more rounds or a deeper recursion do not change the outcome is a separate monotonicity lemma; the rest is C67 on the expanded list |
| C70 | `HashIndex` (the bytes of a value, the hash, chains of buckets, the recursion over columns and arrays) | `HashIndexLemmas`, `HashKeyLemmas`, `Props/HashIndex` | the spec is the list of rows added and not removed; the recursion is shown to be the same as one operation for each key of the row; with the invariant that no chain has two buckets with one key, the number of times a row is under a key is the number of times the spec has it; keys can be taken apart again from the front, which gives the values back if they are plain |
| C71 | `JsonQuery` (the key table with double hashing, joins and removal of duplicates in both variants, the search for the document of a record, the four ways to get the set for a pair, the rounds) | `KeySizes`, `KeySetLemmas`, `JsonQueryLemmas`, `Props/JsonQuery` | the sizes are shown to be primes, so the probe sequence reaches every place; the invariant of the key table is that before the place of a key there is no free one; each way to get a set is shown to give the documents of the matching records, and the rounds keep the set of documents with the pairs so far |
| C72 | `ExtHash` (extendible hashing: directory, buckets with local levels, growing, splitting, the loop of splits) | `ExtHashLemmas`, `Props/ExtHash` | invariant: a place of the directory points to a bucket exactly if it agrees with the other places of the bucket in as many low bits as the level of the bucket, the keys of the bucket agree too, and each pair is in the bucket for its hash; a split is shown to keep this for any levels, and the loop ends because levels grow |
| C73 | `Guide` (settings and their fields, the section of a run, sequences, the loop over the runs of one process) | `Props/Guide` | a setting changes exactly its fields, checked against a separate table of names; settings in a row by composition; the loop by induction on the number of turns with what a process has done from run i on |
| C74 | `AutoGuide` (tables of the lines of make_guide with their conditions and lengths, the five iterations, the parameters) | `Props/AutoGuide` | the problem decides on one of twelve tables and on five parameters; for each table all values of the parameters are checked by the kernel, which is a complete case analysis, and the cases are put together; that all runs are made is C73 |
| C75 | `InputStats` (wr_analyze_term, the counters of wr_analyze_clause, the list of clauses, the sum with the shared database, what make_auto_guide takes) | `Props/InputStats` | a counter is the length of a largest sublist of clauses with the property; one lemma for all counters by induction on the clauses, one for minima and one for maxima; for equality the counters are zero just if no clause has an equation, and for unit clauses the two counters of equations do not overlap |
| C76 | `SymbolCount` (the two counters of a symbol in one integer, wr_analyze_term as far as it counts) | `Props/SymbolCount` | the integer stands for two numbers, each cut at its limit; one more occurrence keeps this, by the laws of shifts and masks; then induction on terms, literals and clauses |

Properties that turn out to be false of the code are kept at full strength in the property
list; the negation is proved with a concrete witness and the provable part is a theorem with
suffix `_partial`.

## 3. Findings, each with a theorem

* C01-C03: encoders do not reject values out of range; a local handle is decoded against the
  wrong base when a knowledge base is attached.
* C04-C05: 30 February and year 0 are accepted, hour 24 and minute 60 too; shifting a time can
  overflow (undefined).
* C07: matching a number against a record reads outside the database (undefined).
* C10: the prefix hash can overflow; C24: `abs(INT_MIN)` picks a bucket before the table.
* C12: ground general clauses, facts and counts above 255 are rejected by the filter.
* C13: resolving on an atom record shared by two literals is unsound; C15: the same for
  paramodulation with an equation at literal 256 or later.
* C17: comparing a constant with a record is undefined; C18: left-over bindings can hide a cut.
* C19: a rewrite rule on a symbol also rewrites predicates of that name (unsound).
* C21: more than 1000 variables.
* C23: every clause is picked twice.
* C27: a third argument of and/or is lost; a quoted name equal to a variable rejects the input.
* C28, C29: `$sk1`, `$df1` written by the user meet the names made by the clausifier (unsound).
* C29: quoted `'$true'` is taken for the constant.
* C30: an atom that evaluates to false makes the whole copied clause false.
* C31: `$substrat` with two arguments reads behind the record (undefined).
* C32: the Euclidean quotient and remainder and the flooring remainder are wrong; quotients above
  2^53 are rounded.
* C36: `$is_list` and `$is_distinct` of a list give its first element; C37: `1 <= 1.0` is computed to
  false; C38: `$substrat` compares one character.
- C33: a set with a symbol used both as constant and as function can be refuted though satisfiable;
  C39: a given clause simplified to two literals is indexed by a pointer into a buffer that is used again.
  C40: integers are cut to 32 bits (p(4294967297) proves p(1)); one symbol as constant and as function gives false proofs.
* C42: `wg_free_object` compares the offset of the left neighbour, not its head (dballoc.c:1266), so an object behind a
  free block is not freed (-4); an exact fit from a variable-size bucket (1009-1018) leaves the next object's mark set,
  and freeing that object reads user data as a size.
* C43: `wg_delete_record` ignores the refusal of C42 and returns 0; the record is still listed (dbdata.c:325-329).
* C44: after FUTEX_WAIT the lock functions do not look at `waiting` again (dblock.c:1033-1049, 1152-1166), and FUTEX_WAKE comes after
  the queue lock is given back (1080-1083), when the node may be freed and in use again: two processes get the write lock.
* C45: a process whose time is over leaves the queue without passing on a lock that was given to it meanwhile (1034-1038): the
  lock is free, but everybody sleeps. (Also INIT_QLOCK_TIMEOUT takes milliseconds modulo 1000 for nanoseconds, 145-147.)
* C46: `varvals` is read before a new atom can move `prop_varvals` (prop.c:103, 125); the constant standing for a variable is hashed
  in another way than where it occurs itself (hash.c:444); the files for the solver have fixed names (glb.h:128-129).
* C47: the two calls of `wr_process_instgen_result` find the renamings made for the resolvent still bound, but start the counter of new
  variables at 0 (resolve.c:336-346, derive.c:2164): different variables are made equal.
* C48: literal positions in proof lines are masked with the 4 bits meant for the tag (history.c:711-717); for paramodulation into the given
  clause the positions are handed over in the wrong order (derive.c:943-946); only 98 cutting clauses are kept (subsume.c:613-618);
  `wr_flatten_history` reads field 5 of input records, which have 5 fields; in the TPTP format the term of a propositional instance is
  printed as the premise '0'.
* C49: in JSON mode at the default print level the lines of factoring and of propositional instances lack a comma (history.c:2162, 2201) and
  the line of the external solver has a bracket too many (2210 with 2368): the output is not JSON. Arithmetic operators inside terms
  are written as unquoted `$sum` etc. (dbotterprint.c:770-785), backslashes and control characters in names are not escaped, quotes in
  the names of input formulas are not (history.c:1882).
* C50: `wr_same_answers` dereferences both clauses, and NULL is registered for the empty clause: with `max_answers` above 1 a second
  registration is undefined; the sign of `$ans` is ignored (build.c:885-920, derive.c:2060); a picked rule clause with only answer
  literals is registered as NULL (rgenloop.c:345-353), so the answer is lost (not in the model); literals are compared in order only.
  The pointer `answers` is used again after a store that may move the vector; proved harmless because the length is even.
* C51: `find_create_longstr` reads the start of the chain (dbdata.c:3092) before it stores the prefix by a recursive call (3136); if the
  prefix has 32 or more characters and falls into the same slot, its object is cut off from the chain.  `longstr_count` restarts at 0 in a
  database with an attached knowledge base, so the index into `sine_uri_k_values` (analyze.c:960-976) is shared by two names.  A failed
  list cell (3211-3215) makes storing a URI fail after it was linked.
* C52: `wg_compare` returns LESSTHAN for (a,b) and (b,a) when both are NaN (dbcompare.c:172-173), ignores the language of strings (187-189)
  and takes a missing prefix for an empty one (222-227).
* C53: when a full node gets a row and there is no memory for a new leaf, `ttree_add_row` returns -1 (dbindex.c:562) after the smallest row of
  the node was overwritten: that row is no longer in the index. `create_ttree_index` ignores the result (1413) and does not check
  the allocation of the root (1382).
* C54: the conditions x > v and x < v together pass the sanity check (dbquery.c:816 only asks for GREATER). If the run of v in the index covers
  more than two nodes, the emptiness tests (616-634) do not see that the end is before the start, and all rows with x > v are returned.
  The early return (816-823) leaves `res_count` unset. WG_ILLEGAL as a value is taken for an absent bound (756ff).
  `struct column_score` keeps the offset of an index in an int (143).
* C55: with QUICK_REASONER wg_create_record and wg_set_new_field leave indexes as they are (dbdata.c:160-170, 910), so an index made before
  the data is empty or has old keys, and a deleted record can stay in it. wg_index_add_rec puts a record twice into an index
  with a template (dbindex.c:2776 and 2816: such an index is in both tables, and the first match is not remembered), and wg_index_del_rec
  removes twice: if the tree still has a bounding node, the second removal gives -3, wg_delete_record fails (dbdata.c:275) and
  the record stays, but is no longer in the index.
* C56: `["-Bird","t"]` stores the predicate as a uri, `["Bird","t"]` as an anonymous constant, and those are different symbols of the
  prover if the name has to be quoted, so the two do not contradict each other (jsparse.c:2310-2330, dbparse.c:1772-1798). `"p"` and `["p"]`
  are different atoms. `["and"]` is false and `["or"]` is true (1438-1441). After `[a,"=",b` the rest of a list is dropped
  silently (1442-1458). `"~p"` is rejected as a double negation (1407), `["--p","a"]` denies a predicate `-p`. The variable for a null in
  an infix equality is not quantified. An empty string as first or second element goes to strcmp as NULL. Predicates with the names
  imp, eqv, all are read as connectives later on, and the proposition imp vanishes before "=>". Three members of "=>" or "~&" are
  nested to the left.
* C58: `$substr` and `$substrat` are computed from the names of any two symbols, also of Skolem constants and of constants that an axiom may
  make equal (build.c:1442-1485), so `exists X: -$substr("sk",X)` is refuted. `$lesseq(1,1.0)` and `$greatereq(1,1.0)` compute false, since only
  equal words count as equal (1268-1311).
* C59: wg_dump reads the size before it has the lock, and computes the checksum before writing while readers may change the lock words in the
  segment; in both cases it returns 0 and the file is refused by wg_check_dump (dbdump.c:88, 137-145). The file is emptied before the lock is
  asked for (100-117). The checksum called CRC32 is not CRC-32: a signed number is shifted (crc1.h:88).
* C60: a quoted constant with the name of a quantified variable is printed as the variable (dbotterprint.c:2158-2182). Lists are not expanded,
  because wg_expand_frm_for_print does not go into elements with a symbol as their head (dbparse.c:753-767), so `[a,b]` becomes the term a(b).
  wg_print_dquoted writes no final zero byte (1188-1219): a formula that is just a proposition is followed by what the buffer
  had there. `$true` and `$false` are compared as prefixes (2150, 2153). A backslash is not escaped. An include at the end of a file leaves
  a comma (dbparse.c:649-652). The call for an included file starts with its own `blen` of 990 and makes the shared buffer
  smaller than the caller believes (362, 478, dbotterprint.c:2525-2531): later formulas are written beyond its end. Roles like definition or
  lemma are printed, but refused by the JSON reader (jsparse.c:1151-1156).
* C61: wr_derived_weight_check (derive.c:1773-1875) throws clauses away without a trace, and wr_genloop returns 1 for an empty queue in any case
  (rgenloop.c:260-262), so the end of a search with limits is not told from a saturated set.
* C63: hardness_pref alone allows one hardest literal of each clause, and proofs are lost. Symbols are compared by number of creation, a symbol and a
  number by their words, the larger one being smaller (strat.c:1878-1896). The word of a symbol is its offset and that of an integer is 8 times
  the integer, so with an integer between the offsets (divided by 8) of two symbols the order of atoms has a circle; a clause can then
  have no literal that may be resolved upon.
* C64: the filter can keep the goal alone and drop the fact that contradicts it (five clauses are enough). The strategies other than 1 set sine_common to
  10 whatever was computed before (analyze.c:618-619); strategy 5 has the limit 1000 instead of 10000 for more than 200000 clauses
  (analyze.c:755); without goals everything but common clauses is dropped, contrary to the comment that the filter may be turned off (rmain.c:1223);
  clauses with numbers from 10000000 on, even goals, are dropped (analyze.c:958).
* C65: with QUICK_REASONER (dbdata.c:84) wg_set_field returns 0 without storing (683-685), which makes wg_set_int_field etc, the CSV import and the
  schema functions store nothing. The counts of references stay 0, so wg_delete_record and wg_free_encoded free strings that other records have
  (the comment at 1244 says that this does not happen), and the place is given to the next string. wg_delete_record never refuses, and fails with
  -3 for every record that refers to a record, after having freed the fields before. Without QUICK_REASONER wg_get_next_parent gives the same
  parent for ever if it refers to the record twice (496).
* C66: `p<=>q` without blanks is read as `p< => q`, `p<=q` as the equation `p< = q`, `p/*c*/` as one name (dbotter.l:124). The grammar has an
  empty formula (dbotter.y:154, nothing before the first `|`), so a missing operand is no error: the value comes from above the top of the stack, and is that of an
  earlier statement (`fof(a,axiom,(p & q)). fof(b,axiom,r & ).` reads the second as `r & q`) or uninitialised. `2*3+4` is read as 2*(3+4), `9-3=c` as
  9-(3=c), `1/2` is a syntax error, `-5` is [not,5]. An unclosed quote or comment ends the file silently; unknown characters are skipped.
  `\\` in quotes is not an escaped backslash. Names in quotes of 1024 bytes or more are written beyond elmparsestrbuf (dbotter.l:98). Mixed
  connectives are read from left to right without precedence. `p @ q` has its arguments swapped. Lists of more than about 5000 arguments
  exhaust the stack of the parser (YYMAXDEPTH).
* C67: the tests for statements want exactly three arguments (dbparse.c:670-698), so `fof(n,conjecture,f,source).` is taken for a formula: an atom with
  predicate fof. The conjecture is silently lost. The role of cnf statements is not looked at (713-738), a conjecture among them is an axiom. `'a'` and
  `a` are different constants, as the second string of the atom is kept. Formulas without fof(...) in included files are not clausified (626-628).
* C68: g->filename stays the name of the file included last (dbparse.c:165), so with `include('x/a'). include('x/b').` the second one that is processed is
  looked for in x/x; the result of the import is not looked at (1078), so the axioms are silently missing. A file with nothing but include statements is
  refused (285), a missing file is not (1078), and a file that includes itself is read until memory or file handles are used up.
* C69: the status word depends on g->in_has_fof only (history.c:1364-1369), which each import sets to 0 (dbparse.c:178): contradictory fof axioms without a
  conjecture are reported as `Theorem`, and a conjecture after an included file with cnf statements only as `Unsatisfiable`.
* C70: wg_decode_for_hashing puts an integer through a C int (dbhash.c:336), so a search for 5 also gives rows with 4294967301; it leaves out the language of a
  string (349-352); and with two columns of URIs the zero after a prefix is the same as the zero between columns (296, dbindex.c:1593).
* C71: find_document_recursive gives up after six references and check_and_merge_recursively returns an error after seven (dbquery.c:1596-1605, 1718-1744), so one deep
  document, or one matching record outside of all documents, makes a whole query fail; with shared records only the first document that refers to a record is
  found; and the table of sizes has 25 entries but p_count is 20 (dbhash.c:868-875), so for sets of 201326612 to 2147483645 keys there are too few places.
* C72: wg_ginthash_addkey does not look for the key (dbhash.c:621-650), so for an offset that is used twice in a log (a deleted record) translate_offset gives the old
  place, or the new one if a split has reversed the order (785-792); eight uses of one offset, or more than 29360128 offsets, make the replay fail (705-710).
* C72: the table is always compiled, but the replay of the log that uses it (dblog.c) only with USE_DBLOG, which config.h and config-gcc.h leave undefined.
* C73: wr_parse_guide_section gives the number of runs, or 10 for a sequence (guide.c:399, 427), and rmain.c:750 takes 10 for a sequence; g->guidetext is an array and never NULL.
  So a strategy with exactly ten runs makes none of them: with one process the result is "proof not found" without a search (res is still 1, rmain.c:143). A process whose
  turn goes past the last run makes a search with the outer settings (rmain.c:391-405, 921), which usually have no limit of time although each run has one.
* C74: make_guide has no branch for 100000000 clauses or more (makeguide.c:402, 972); then make_auto_guide writes an empty list of runs and the comma it overwrites
  (analyze.c:1332-1337) is the one before "runs". The longest text for other problems takes 46691 of 50000 bytes (998 clauses with equality).
* C75: make_sum_input_stats divides the number of clauses by the sum of both numbers, as ints (analyze.c:1427-1437): that is a division by zero if the file and the
  shared database have no clauses, and otherwise 0 unless one of them is empty. The averages are never set (they stay 0) and not used.
* C76: the mask for negative occurrences has 13 bits though 16 are kept for them (analyze.h:41-43), so they are cut at 8191 and the limit of 10000 in strat.c:846 is
  never reached. All counts are below 2^33 and so small integers of the database (61 bits, dbdata.h:333-336).
