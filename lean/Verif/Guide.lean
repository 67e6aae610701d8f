/-
Strategy files: Reasoner/guide.c and the loop over the runs in Reasoner/rmain.c.

Simplified: the text of the file is already parsed (cjson.c), the numbers are already C ints; of the globals only the
fields that a strategy can set are there, as a function from their names (the six bits of arith_inst_explicit_mask
are fields of their own); warnings and the text of the run that is printed are left out; the time for all runs
(rmain.c:425-438) is not up, nothing runs out of memory, no answers are asked for. What a search gives is a
parameter.
-/
namespace Gkc.Gd

/-- a JSON value as cJSON has it; a cJSON object is a list, a name can be in it several times. Reasoner/guide.c:50-58 -/
inductive J where
  | num (n : Int)
  | str (s : String)
  | bool (b : Bool)
  | null
  | arr (l : List J)
  | obj (l : List (String × J))

/-- `valueint`, which is 0 if the value is not a number, but 1 for `true`. cjson/cjson.c:1220-1240, 320-335 -/
def J.int : J → Int
  | .num n => n
  | .bool true => 1
  | _ => 0

/-- the values under `child`, for arrays and objects alike -/
def J.children : J → List J
  | .arr l => l
  | .obj l => l.map (·.2)
  | _ => []

/-- the fields of `glb` that a strategy can set. Reasoner/glb.h -/
abbrev Fields := String → Int

/-- an assignment -/
def put (s : Fields) (a : String × Int) : Fields := fun f => if f = a.1 then a.2 else s f

/-- the settings with a field that just gets the number. Reasoner/guide.c:189-355 -/
def numeric : List (String × String) :=
  [("print", "print_flag"), ("print_json", "print_json"), ("print_tptp", "print_tptp"), ("print_level", "print_level_flag"),
   ("max_answers", "required_answer_nr"), ("max_seconds", "max_run_seconds"), ("total_seconds", "max_seconds"),
   ("max_dseconds", "max_run_dseconds"), ("total_dseconds", "max_dseconds"), ("given_queue_ratio", "pick_given_queue_ratio"),
   ("sine", "sine_strat"), ("max_weight", "cl_maxkeep_weightlimit"), ("max_size", "cl_maxkeep_sizelimit"),
   ("max_depth", "cl_maxkeep_depthlimit"), ("max_length", "cl_maxkeep_lengthlimit"), ("depth_penalty", "cl_depth_penalty"),
   ("length_penalty", "cl_length_penalty"), ("var_weight", "var_weight"), ("repeat_var_weight", "repeat_var_weight"),
   ("equality", "use_equality_strat"), ("rewrite", "use_rewrite_terms_strat"), ("weight_select_ratio", "pick_given_queue_ratio"),
   ("reverse_clauselist", "reverse_clauselist_strat"), ("query_preference", "cl_pick_queue_strategy"), ("instgen", "instgen_strat"),
   ("arith_instantiation", "arith_instantiation"), ("arith_inst_max_vars", "arith_inst_max_vars"),
   ("arith_inst_candidate_limit", "arith_inst_candidate_limit"), ("arith_inst_probe_limit", "arith_inst_probe_limit"),
   ("arith_inst_keep_limit", "arith_inst_keep_limit"), ("arith_inst_depth_limit", "arith_inst_depth_limit"),
   ("arith_inst_global_limit", "arith_inst_global_limit"), ("propgen", "propgen_strat")]

/-- wr_parse_guide_strategy_set. Reasoner/guide.c:447-495 -/
def flags : List (String × List (String × Int)) :=
  [("negative_pref", [("negpref_strat", 1)]), ("positive_pref", [("pospref_strat", 1)]), ("hyper", [("hyperres_strat", 1)]),
   ("unit", [("res_shortarglen_limit", 1)]), ("double", [("res_shortarglen_limit", 2)]), ("triple", [("res_shortarglen_limit", 3)]),
   ("hardness_pref", [("hardnesspref_strat", 1)]), ("query_focus", [("queryfocus_strat", 1)]),
   ("knuthbendix_pref", [("knuthbendixpref_strat", 1)]), ("prohibit_nested_para", [("prohibit_nested_para", 1)]),
   ("prohibit_unordered_para", [("prohibit_unordered_para", 1)]), ("prohibit_deep_para", [("prohibit_deep_para", 1)]),
   ("posunitpara", [("posunitpara_strat", 1)]), ("max_ground_weight", [("use_max_ground_weight", 1)]),
   ("max_weight", [("use_max_weight", 1)]), ("pure_unit", [("res_arglen_limit", 1), ("res_strict_arglen_limit", 1)]),
   ("hornpref", [("use_hornpref", 1)]), ("posweightdoublepref", [("use_posweightdoublepref", 1)]),
   ("negweightdoublepref", [("use_negweightdoublepref", 1)])]

/-- wr_parse_guide_strategy: one name or a list of names; what is not a string is passed over. Reasoner/guide.c:430-445 -/
def names : J → List String
  | .str s => [s]
  | .arr l => l.filterMap fun v => match v with | .str s => some s | _ => none
  | _ => []

/-- what a name sets; nothing if it is not known -/
def setFlag (n : String) : List (String × Int) := (flags.lookup n).getD []

/-- a number of tenths as seconds, rounded up; C divides toward zero, but only positive numbers are divided. Reasoner/guide.c:264-268 -/
def inSeconds (n : Int) : Int := if n > 0 then n.tdiv 10 + (if n.tmod 10 ≠ 0 then 1 else 0) else n

/-- the fields that some settings set in addition. Reasoner/guide.c:192-218, 230-236, 250-256, 264-268, 330-352, 357 -/
def extra (total : Bool) (k : String) (v : J) : List (String × Int) :=
  if k = "print_json" then (if v.int ≠ 0 then [("print_clauses_json", 1)] else [])
  else if k = "print_tptp" then
    let b : Int := if v.int = 0 then 0 else 1
    [("print_fof_conversion_proof", b), ("store_fof_source", b), ("store_fof_skolem_steps", b), ("print_clauses_tptp", b),
     ("print_proof_tptp", b), ("use_comp_arithmetic", 1 - b)]
  else if k = "max_seconds" then [("use_strong_unit_cutoff", if v.int ≠ 0 ∧ v.int < 2 then 1 else 0)]
  else if k = "max_dseconds" then [("use_strong_unit_cutoff", if v.int ≠ 0 ∧ v.int < 20 then 1 else 0)]
  else if k = "total_dseconds" then (if total then [] else [("max_seconds", inSeconds v.int)])
  else if k = "arith_inst_max_vars" then [("arith_inst_explicit_mask 1", 1)]
  else if k = "arith_inst_candidate_limit" then [("arith_inst_explicit_mask 2", 1)]
  else if k = "arith_inst_probe_limit" then [("arith_inst_explicit_mask 4", 1)]
  else if k = "arith_inst_keep_limit" then [("arith_inst_explicit_mask 8", 1)]
  else if k = "arith_inst_depth_limit" then [("arith_inst_explicit_mask 16", 1)]
  else if k = "arith_inst_global_limit" then [("arith_inst_explicit_mask 32", 1)]
  else if k = "strategy" then (names v).flatMap setFlag
  else []

/-- the field that gets the number -/
def number (k : String) (v : J) : List (String × Int) := match numeric.lookup k with | some f => [(f, v.int)] | none => []

/-- all that a setting sets; an unknown setting only warns. Reasoner/guide.c:185-410 -/
def assigns (total : Bool) (k : String) (v : J) : List (String × Int) :=
  number k v ++ extra total k v

/-- a setting is taken over -/
def setKey (total : Bool) (s : Fields) (e : String × J) : Fields := (assigns total e.1 e.2).foldl put s

/-- `has_total_seconds`. Reasoner/guide.c:175-182 -/
def hasTotal (kvs : List (String × J)) : Bool := kvs.any (·.1 = "total_seconds")

/-- wr_parse_guide_section with a negative number of the run, i.e. for one run: an array is 10, what is neither array
    nor object is an error, "runs" only warns. Reasoner/guide.c:160-173, 361-363, 412-427 -/
def parseRun (s : Fields) : J → Fields × Int
  | .arr _ => (s, 10)
  | .obj kvs => ((kvs.filter (·.1 ≠ "runs")).foldl (setKey (hasTotal kvs)) s, 0)
  | _ => (s, -1)

/-- the loop of wr_parse_guide_section over the settings outside the runs, for run number `i`; `q` is the number in the
    sequence or `none` for -1; `c` is `runcount`. Reasoner/guide.c:184-427 -/
def loop (total : Bool) (i : Nat) (q : Option Nat) : List (String × J) → Fields → Int → Fields × Int
  | [], s, c => (s, c)
  | (k, v) :: r, s, c =>
    if k = "runs" then
      match v with
      | .num _ => loop total i q r s c
      | .arr runs =>
        match runs[i]? with
        | none => loop total i q r s runs.length
        | some run =>
          match q with
          | some q =>
            match run.children[q]? with
            | some x => let p := parseRun s x; (p.1, if p.2 < 0 then -1 else 0)
            | none => (s, -1)
          | none =>
            let p := parseRun s run
            if p.2 = 10 then (p.1, 10)
            else if p.2 < 0 then (p.1, -1)
            else loop total i none r p.1 runs.length
      | _ => (s, -1)
    else loop total i q r (setKey total s (k, v)) c

/-- wr_parse_guide_section for the whole strategy; an array is refused already before. Reasoner/guide.c:153-428, Reasoner/rmain.c:175-180 -/
def section' (guide : J) (i : Nat) (q : Option Nat) (s : Fields) : Fields × Int :=
  match guide with
  | .obj kvs => loop (hasTotal kvs) i q kvs s 0
  | _ => (s, -1)

/-- the number of the run, its fields -/
abbrev Trace := List (Nat × Fields)

/-- the loop for a sequence: the searches made and the result, which is the old one if there is no search; the fields are those of
    before. Number `q` is an error if the run is there and has no member `q`, which ends the loop; if there is no such run nothing ends
    it but a search. C has no `fuel`. Reasoner/rmain.c:750-812 -/
def seqLoop (search : Nat → Nat → Fields → Int) (guide : J) (i : Nat) : Nat → Nat → Fields → Int → Trace × Int
  | 0, _, _, res => ([], res)
  | fuel + 1, q, s, res =>
    let p := section' guide i (some q) s
    if p.2 < 0 then ([], res)
    else
      let res := search i q p.1
      if res > 0 then let t := seqLoop search guide i fuel (q + 1) p.1 res; ((i, p.1) :: t.1, t.2)
      else ([(i, p.1)], res)

/-- the loop over the runs, for one process: it makes every `step`-th run, each with fresh globals `d`. It ends if there is a proof (0),
    if the strategy is wrong (-1), or if the number of the run is at the number of runs as wr_parse_guide_section gives it; that is
    10 for a sequence as well. `g->guidetext` is an array, so it is never NULL. C has no `fuel`
    and no `most`, which is the fuel of the other loop.
    Reasoner/rmain.c:390-400, 440-540, 748-830, 880-923 -/
def runLoop (search : Nat → Nat → Fields → Int) (guide : J) (d : Fields) (step most : Nat) : Nat → Nat → Int → Trace × Int
  | 0, _, res => ([], res)
  | fuel + 1, i, res =>
    let p := section' guide i none d
    if p.2 < 0 then ([], -1)
    else
      let t := if p.2 = 10 then seqLoop search guide i most 0 p.1 res else ([(i, p.1)], search i 0 p.1)
      if t.2 = 0 then t
      else if ((i + 1 : Nat) : Int) ≥ p.2 then t
      else let u := runLoop search guide d step most fuel (i + step) t.2; (t.1 ++ u.1, u.2)

/-- wg_run_reasoner: process `fork` of `forks`; one process only is `fork = 0` of 1. The result is 1 at first. `most`
    is a bound on the number of turns of each of the two loops: what holds for all large bounds is what the program does. Reasoner/rmain.c:143, 285-300, 390-405 -/
def run (search : Nat → Nat → Fields → Int) (guide : J) (d : Fields) (forks fork most : Nat) : Trace × Int :=
  runLoop search guide d forks most most fork 1

end Gkc.Gd
