import Verif.Saturate
import Verif.Subsume
import Verif.Props.Index
/-
The given clause loop as a function: Reasoner/rgenloop.c wr_genloop (lines 195-520) for problems
without equality, arithmetic and answer literals.  The literals of a clause that may be resolved upon
are given by a parameter (see Strategy.lean for wr_calc_clause_resolvability); g->queryfocus_strat and
g->hyperres_strat are 0 as Reasoner/glb.c:219-222 sets them, since the loop is another one with them.  Strong unit
cuts and strong duplicates are off (glb.c:257-258); axioms are not selected by SInE.

Saturate.lean has the same loop as a relation allowing every order of steps and every loss of
clauses; here the loop does what the program does, so that it can be said what follows when it
ends without a proof.

Simplifications.  Which clause is picked, the sort function, the block of clause summaries compared before
subsumption and the weight check of derived clauses are parameters (`Opt`): nothing is assumed of them
but what is said in the theorems.  The index of literals is built anew from the list of active
clauses for each given clause, with the literals allowed by the parameter for the active copy; the program
stores what was computed for the given clause, which differs in the names of variables.  A clause made by simplification keeps its variables (the program
renames them, simp.c:340-347).  A clause is taken out of the queue when it is picked; the program may pick it
a second time from another of its queues (C23).  There is no knowledge base attached and no time limit.
-/
namespace Gkc.Loop
open Gkc Term

/-- what the loop is run with -/
structure Opt where
  /-- recursion budget of unification and building -/
  n : Nat
  /-- masked summary of an atom, compared before atoms -/
  m : Term → Nat
  /-- hash of constants in literal summaries, wr_term_basehash -/
  h : Const → Int
  /-- hash of constants in the literal index, wr_term_basehash -/
  hb : Const → BitVec 64
  /-- room for index nodes -/
  cap : Nat
  /-- `required_answer_nr==1` -/
  ans : Bool
  /-- wr_sort_cl -/
  sort : List ALit → List ALit
  /-- the picked place of the queue, taken modulo its length: wr_pick_from_hyper_queue, wr_pick_from_clpick_queues -/
  pick : List (List ALit) → Nat
  /-- wr_clmetablock_can_subsume -/
  pre : List ALit → List ALit → Bool
  /-- wr_derived_weight_check, Reasoner/derive.c:1773-1875 -/
  keep : List Lit → Bool
  /-- wr_calc_clause_resolvability, Reasoner/strat.c:324-632: the literals at these places may be resolved upon -/
  sel : List Lit → Nat → Bool

/-- the state of the loop; `lost` tells that a clause was thrown away for its size, weight or number of
variables.  The program keeps no such flag. -/
structure LState where
  st : PState
  lost : Bool

/-- a newly built clause: each atom is a record of its own -/
def fresh (ls : List Lit) : List ALit := ls.mapIdx (fun i l => ⟨i, l.neg, l.atom⟩)

/-- the literals of a stored clause -/
def lits (cl : List ALit) : List Lit := cl.map ALit.lit

/-- the two-literal clauses with a literal of the given sign and atom, Reasoner/subsume.c:905-1008 -/
def bucket (ds : List (Lit × Lit)) (b : Bool) (x : Term) : List (Lit × Lit) :=
  ds.filter fun d => (d.1.neg == b && eqTerm d.1.atom x) || (d.2.neg == b && eqTerm d.2.atom x)

/-- wr_add_cl_to_unithash (Reasoner/derive.c:1878-1950) and wr_add_cl_to_doublehash (1963-2019) -/
def learn (s : PState) : List ALit → PState
  | [x] => { s with units := { s.units with
      loc := fun b => if b = x.neg then x.atom :: s.units.loc b else s.units.loc b } }
  | [x, y] => { s with doubles := (x.lit, y.lit) :: s.doubles }
  | _ => s

/-- a clause is put into the queue, Reasoner/derive.c:355-400 -/
def enter (s : PState) (cl : List ALit) : PState :=
  { learn s cl with passive := s.passive ++ [cl] }

/-- the input clauses are put into the queue, tautologies are left out, Reasoner/rmain.c:1330-1560 -/
def start (o : Opt) (input : List (List Lit)) : LState :=
  ⟨input.foldl (fun s cl => if tautCl o.m cl then s else enter s (fresh cl)) (PState.init []), false⟩

/-- the result of one inference, wr_process_resolve_result and wr_process_factor_result,
Reasoner/derive.c:129-400, 642-840: cuts, then the weight check, then the queue.  `none`: the
model's recursion budget ran out, or undefined behaviour.  After a proof nothing more is done. -/
def derive1 (o : Opt) (s : LState) (i : Inf) : Option LState :=
  if s.st.refuted then some s
  else match i with
    | .fuel => none
    | .none => some s
    | .dropped taut => some (if taut then s else { s with lost := true })
    | .ok r => match finish true false false s.st.units o.n (fun _ _ => []) o.m (bucket s.st.doubles) fresh St.empty r with
      | .fuel => none
      | .ub => none
      | .subsumed => some s
      | .ok [] => some { s with st := { s.st with refuted := true } }
      | .ok (l :: ls) =>
        if o.keep (l :: ls) then some { s with st := enter s.st (fresh (l :: ls)) }
        else some { s with lost := true }

/-- several inferences in turn -/
def derives (o : Opt) : LState → List Inf → Option LState
  | s, [] => some s
  | s, i :: is => (derive1 o s i).bind fun s => derives o s is

/-- wr_factor, Reasoner/resolve.c:369-457: all pairs of literals -/
def factorAll (o : Opt) (g : List ALit) : List Inf :=
  (List.range g.length).flatMap fun i => (List.range g.length).map fun j => factorInf some o.n g i j

/-- the active clauses as they are stored in the literal index -/
def numbered (o : Opt) (active : List (List ALit)) : List (Nat × List (Bool × Lit)) :=
  active.mapIdx fun k cl => (k, cl.mapIdx fun i l => (o.sel (lits cl) i, l.lit))

/-- the inferences tried for one candidate of the index: the program has the atom by its address,
here it is looked for in the clause -/
def tryCand (o : Opt) (active : List (List ALit)) (g : List ALit) (i : Nat) (e : Term × Nat × Nat) : List Inf :=
  match active[e.2.1]? with
  | none => []
  | some y => ((List.range y.length).filter fun j => match y[j]? with
      | none => false
      | some l => eqTerm l.atom e.1).map fun j => resolveInf some o.n g i y j

/-- one literal of the given clause in wr_resolve_binary_all_active, Reasoner/resolve.c:126-349;
`none`: exit with an error -/
def resolveLit (o : Opt) (active : List (List ALit)) (ix : Index.Ix) (g : List ALit) (i : Nat) (l : ALit) : Option (List Inf) :=
  (Index.lookup o.hb ix l.lit).map fun es => es.flatMap (tryCand o active g i)

/-- wr_resolve_binary_all_active, Reasoner/resolve.c:84-353 -/
def resolveFrom (o : Opt) (active : List (List ALit)) (ix : Index.Ix) (g : List ALit) : Nat → List ALit → Option (List Inf)
  | _, [] => some []
  | i, l :: ls => (if o.sel (lits g) i then resolveLit o active ix g i l else some []).bind fun is => (resolveFrom o active ix g (i + 1) ls).map (is ++ ·)

/-- all resolutions of the given clause with the active clauses -/
def resolveAll (o : Opt) (active : List (List ALit)) (g : List ALit) : Option (List Inf) :=
  (Props.storeAll o.hb o.cap false .empty (numbered o active)).bind fun ix => resolveFrom o active ix g 0 g

/-- an atom whose arguments are constants, wr_process_resolve_result_isrulecl, Reasoner/derive.c:2021-2052 -/
def flatAtom : Term → Bool
  | .app _ as => as.all fun a => match a with
    | .const _ => true
    | _ => false
  | _ => false

/-- a positive unit clause with a flat atom is stored as a fact -/
def isFact : List ALit → Bool
  | [x] => !x.neg && flatAtom x.atom
  | _ => false

/-- a clause as subsumption sees it -/
def form (h : Const → Int) (cl : List ALit) : SClause :=
  match isFact cl, cl with
  | true, x :: _ => .fact x.atom
  | _, _ => .rule ((lits cl).map (Lit.stored h))

/-- wr_active_subsumed_lit, Reasoner/subsume.c:486-522, wr_add_cl_to_active_unithash, rgenloop.c:708-790: an active ground unit clause is equal to the literal -/
def activeUnit (active : List (List ALit)) (l : ALit) : Bool :=
  active.any fun a => match a with
    | [x] => !hasVars x.atom && x.neg == l.neg && eqTerm x.atom l.atom
    | _ => false

/-- the loop over the list of active clauses, Reasoner/subsume.c:133-235 -/
def activeSubsumes (o : Opt) (cl : List ALit) : List (List ALit) → Option Bool
  | [] => some false
  | a :: as =>
    if !o.pre a cl then activeSubsumes o cl as
    else match subsumeCl o.ans (form o.h a) (form o.h cl) with
      | none => none
      | some true => some true
      | some false => activeSubsumes o cl as

/-- wr_given_cl_subsumed, Reasoner/subsume.c:71-240: the ground literals at the beginning of the clause
are looked for among active ground units, then the list of active clauses is tried -/
def givenSubsumed (o : Opt) (active : List (List ALit)) (cl : List ALit) : Option Bool :=
  if (cl.takeWhile fun l => !hasVars l.atom).any (activeUnit active) then some true
  else activeSubsumes o cl active

/-- result of a round -/
inductive Res
  /-- the queue is empty: wr_genloop returns 1, rgenloop.c:257-259 -/
  | finished (s : LState)
  /-- recursion budget, undefined behaviour or an exit with an error -/
  | stuck
  | next (s : LState)

/-- wr_simplify_cl without rewriting and computing, Reasoner/simp.c:58-381 -/
def simplify (o : Opt) (s : PState) (c : List ALit) : SRes :=
  match isFact c, c with
  | true, [x] => simplifyFact (fun x => .ok (x, false)) x
  | _, _ => simplifyCl (fun x => .ok (x, false)) s.units o.m (bucket s.doubles) c

/-- From the subsumption test on, rgenloop.c:325-505.  `chg`: the clause was simplified
(`simplen!=origlen`). -/
def useGiven (o : Opt) (s : LState) (c : List ALit) (chg : Bool) : Res :=
  if tautCl o.m (lits c) then .next s
  else match givenSubsumed o s.st.active c with
    | none => .stuck
    | some true => .next s
    | some false => match copyCl some 1 o.n St.empty (lits c) with
      | .fuel => .stuck
      | .illegal => .next { s with lost := true }
      | .truth _ => .next { s with lost := true }
      | .ok g _ => match copyCl some 2 o.n St.empty g with
        | .fuel => .stuck
        | .illegal => .next { s with lost := true }
        | .truth _ => .next { s with lost := true }
        | .ok a _ =>
          let st : PState := { s.st with given := some (fresh g), active := s.st.active ++ [fresh a] }
          let st : PState := if chg && (fresh g).length == 2 then learn st (fresh g) else st
          match (derives o { s with st := st } (factorAll o (fresh g))).bind fun s1 =>
              (resolveAll o st.active (fresh g)).bind fun is => derives o s1 is with
          | none => .stuck
          | some s2 => .next s2

/-- one round of wr_genloop, Reasoner/rgenloop.c:218-515 -/
def iter (o : Opt) (s : LState) : Res :=
  match s.st.passive[o.pick s.st.passive % s.st.passive.length]? with
  | none => .finished s
  | some p =>
    let s : LState := { s with st := { s.st with
      passive := s.st.passive.eraseIdx (o.pick s.st.passive % s.st.passive.length), given := none } }
    if tautCl o.m (lits p) then .next s
    else match simplify o s.st (o.sort p) with
      | .fuel => .stuck
      | .illegal => .stuck
      | .drop => .next s
      | .ok [] => .next { s with st := { s.st with refuted := true } }
      | .same => useGiven o { s with st := { s.st with cur := some (o.sort p) } } (o.sort p) false
      | .ok (l :: ls) => useGiven o { s with st := { s.st with cur := some (fresh (l :: ls)) } } (fresh (l :: ls)) true

/-- wr_genloop for at most `k` rounds; the loop is left when a proof is found -/
def run (o : Opt) : Nat → LState → Res
  | 0, s => .next s
  | k + 1, s => if s.st.refuted then .next s else match iter o s with
    | .next s' => run o k s'
    | r => r

end Gkc.Loop
