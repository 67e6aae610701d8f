import Verif.Term
import Verif.Sem
/-
Dropping input clauses that seem to have nothing to do with the goal: wr_analyze_sine, Reasoner/analyze.c:504-922,
used with the strategies `"sine":1` to `"sine":5` (g->sine_strat).

Counts and lists of occurrences are those collected once by wr_analyze_clause (Reasoner/analyze.c:133-395) for all
clauses of the database, without an attached knowledge base (`haveextdb` 0).  Products with the float sine_tolerance
are exact (counts below 2^24), so the tolerance is doubled and comparisons are made with whole numbers.  Memory for the vectors is
always found.  Clauses that are neither fact nor rule do not occur.
-/
namespace Gkc.Sine
open Gkc Term

/-- a clause of dbmemsegh(db)->clauselist: number (wr_get_clid), role (wr_cl_is_goal) and literals -/
structure Cl where
  id : Nat
  goal : Bool
  lits : List Lit
deriving DecidableEq

/-- what the filter depends on -/
structure Cfg where
  /-- g->sine_strat, not 0 -/
  strat : Nat
  /-- g->sine_k_bytes -/
  nb : Nat
  /-- g->sine_uri_k_bytes -/
  ub : Nat
  /-- wg_decode_uri_id -/
  uid : Const → Nat
  /-- dbmemsegh(db)->urilist -/
  uris : List Const

/-! ### Symbols -/

/-- wr_get_term_symbols at a constant or function symbol, Reasoner/analyze.c:1028-1047: symbols not yet in the vector
are pushed -/
def addSym (c : Const) (acc : List Const) : List Const :=
  if !c.isLongstr then acc else if c ∈ acc then acc else acc ++ [c]

mutual
/-- wr_get_term_symbols, Reasoner/analyze.c:1021-1058 -/
def termSyms : Term → List Const → List Const
  | .var _, acc => acc
  | .const c, acc => addSym c acc
  | .app f as, acc => termSymsL as (addSym f acc)
/-- the loop over the fields, analyze.c:1053-1056 -/
def termSymsL : List Term → List Const → List Const
  | [], acc => acc
  | a :: as, acc => termSymsL as (termSyms a acc)
end

/-- wr_get_clause_symbols, Reasoner/analyze.c:989-1020 -/
def clSyms (C : Cl) (acc : List Const) : List Const := C.lits.foldl (fun acc l => termSyms l.atom acc) acc

/-- the clauses with the symbol, in the order in which wr_analyze_clause has pushed them, analyze.c:316-391 -/
def occs (cls : List Cl) (c : Const) : List Cl := cls.filter fun C => decide (c ∈ clSyms C [])

/-- wg_decode_uri_scount -/
def scount (cls : List Cl) (c : Const) : Nat := (occs cls c).length

/-! ### Tests on clauses -/

mutual
/-- wr_sine_check_trigger_term, Reasoner/analyze.c:1084-1121, with the test of a symbol as a parameter -/
def checkTerm (p : Const → Bool) : Term → Bool
  | .var _ => true
  | .const c => !c.isLongstr || p c
  | .app f as => (!f.isLongstr || p f) && checkTermL p as
/-- the loop over the fields, analyze.c:1116-1119 -/
def checkTermL (p : Const → Bool) : List Term → Bool
  | [] => true
  | a :: as => checkTerm p a && checkTermL p as
end

/-- wr_sine_check_trigger_cl, Reasoner/analyze.c:1061-1079 -/
def checkCl (p : Const → Bool) (C : Cl) : Bool := C.lits.all fun l => checkTerm p l.atom

/-- the test with `common`, analyze.c:1101-1104 -/
def common (cls : List Cl) (bound : Nat) (C : Cl) : Bool := checkCl (fun d => decide (bound ≤ scount cls d)) C

/-- the test with `scount` and `tolerance`, analyze.c:1105-1109; the tolerance is doubled -/
def trig (cls : List Cl) (tol2 sc : Nat) (C : Cl) : Bool := checkCl (fun d => decide (¬ 2 * sc > scount cls d * tol2)) C

/-! ### Parameters -/

/-- sine_maxk, analyze.c:547 -/
def maxk : Nat := 120

/-- a value clipped to the range from 10 to 10000, as in analyze.c:621-623 -/
def clip (x : Nat) : Nat := if x > 10000 then 10000 else if x < 10 then 10 else x

/-- maxcount, analyze.c:568-585 -/
def maxcount (cfg : Cfg) (cls : List Cl) : Nat := cfg.uris.foldl (fun m c => if scount cls c > m then scount cls c else m) 0

/-- sine_common, analyze.c:612-620 -/
def sineCommon (cfg : Cfg) (cls : List Cl) : Nat :=
  if cfg.strat = 1 then (if maxcount cfg cls < 50 then maxcount cfg cls * 7 / 10 else 10) else 10

/-- sine_maxcommon, analyze.c:616-623 -/
def sineMaxcommon (cfg : Cfg) : Nat := if cfg.strat = 1 then 1000000 else clip (cfg.uris.length / 10)

/-- sine_maxtriggers, analyze.c:659-665 and 738-757 -/
def maxTriggers (cfg : Cfg) (n : Nat) : Nat :=
  if cfg.strat = 1 then 1000000
  else if cfg.strat = 4 then clip (n / 15)
  else if cfg.strat = 5 then (if n / 20 > 10000 then 1000 else if n / 20 < 10 then 10 else n / 20)
  else clip (n / 10)

/-- sine_tolerance, doubled, analyze.c:717-760 -/
def tol2 (cfg : Cfg) (n : Nat) : Nat :=
  if cfg.strat = 3 then 8
  else if cfg.strat = 4 then 4
  else if cfg.strat = 5 then 2
  else if n < 100000 then 8 else 3

/-- sine_g, analyze.c:717-760 -/
def sineG (cfg : Cfg) (n : Nat) : Nat :=
  if cfg.strat = 3 then 2
  else if cfg.strat = 4 then 1
  else if cfg.strat = 5 then 1
  else if n < 100 then 4 else if n < 1000 then 3 else if n < 10000 then 2 else 1

/-! ### Tables -/

/-- the tables g->sine_k_values and g->sine_uri_k_values, the counter `triggers`, and the part of the vector `uriinfo` that
is still to be handled -/
structure St where
  kc : Nat → Nat
  ku : Nat → Nat
  triggers : Nat
  queue : List Const

/-- wr_set_cl_sine_k, Reasoner/analyze.c:946-952 -/
def setC (cfg : Cfg) (s : St) (C : Cl) (k : Nat) : St :=
  if C.id ≥ cfg.nb then s else { s with kc := fun i => if i = C.id then k else s.kc i }

/-- wr_get_cl_sine_k, Reasoner/analyze.c:954-960 -/
def getC (cfg : Cfg) (s : St) (C : Cl) : Nat := if C.id ≥ cfg.nb then 0 else s.kc C.id

/-- wr_set_uri_sine_k, Reasoner/analyze.c:962-968 -/
def setU (cfg : Cfg) (s : St) (c : Const) (k : Nat) : St :=
  if cfg.uid c ≥ cfg.ub then s else { s with ku := fun i => if i = cfg.uid c then k else s.ku i }

/-- wr_get_uri_sine_k, Reasoner/analyze.c:970-976 -/
def getU (cfg : Cfg) (s : St) (c : Const) : Nat := if cfg.uid c ≥ cfg.ub then 100 else s.ku (cfg.uid c)

/-! ### The first loop -/

/-- the loop over clauses, analyze.c:634-656: goals get 1 and their symbols are collected, other clauses get 121 if all their
symbols are common; `found` is common_found -/
def firstLoop (cfg : Cfg) (cls : List Cl) : List Cl → St → Nat → St × Nat
  | [], s, found => (s, found)
  | C :: Cs, s, found =>
    if C.goal then
      let s := setC cfg s C 1
      firstLoop cfg cls Cs { s with queue := clSyms C s.queue } found
    else if sineCommon cfg cls ≠ 0 ∧ sineMaxcommon cfg > found then
      if common cls (sineCommon cfg cls) C then firstLoop cfg cls Cs (setC cfg s C (maxk + 1)) (found + 1)
      else firstLoop cfg cls Cs s found
    else firstLoop cfg cls Cs s found

/-- the tables are cleared (analyze.c:539-540), the clauses looked through, and the symbols of goals get 1 (805-814) -/
def start (cfg : Cfg) (cls : List Cl) : St :=
  let s := (firstLoop cfg cls cls ⟨fun _ => 0, fun _ => 0, 0, []⟩ 0).1
  s.queue.foldl (fun s c => setU cfg s c 1) s

/-! ### The main loop -/

/-- the symbols of a triggered clause, analyze.c:861-879 -/
def pushSyms (cfg : Cfg) (k : Nat) : List Const → St → St
  | [], s => s
  | c :: cs, s =>
    if getU cfg s c = 0 ∨ getU cfg s c > k + 1 then
      let s := setU cfg s c (k + 1)
      pushSyms cfg k cs { s with queue := s.queue ++ [c] }
    else pushSyms cfg k cs s

/-- the loop over the clauses with a symbol of count `sc` at distance `k`, analyze.c:842-881 -/
def visit (cfg : Cfg) (cls : List Cl) (k sc : Nat) : List Cl → St → St
  | [], s => s
  | C :: Cs, s =>
    if getC cfg s C = 0 ∨ getC cfg s C > k + 1 then
      if sc > sineG cfg cls.length ∧ trig cls (tol2 cfg cls.length) sc C = false then visit cfg cls k sc Cs s
      else
        let s := setC cfg s C (k + 1)
        let s := { s with triggers := s.triggers + 1 }
        if s.triggers ≥ maxTriggers cfg cls.length then s
        else visit cfg cls k sc Cs (pushSyms cfg k (clSyms C []) s)
    else visit cfg cls k sc Cs s

/-- the loop over the symbols, analyze.c:825-884; `none` if it is not finished after the given number of rounds -/
def loop (cfg : Cfg) (cls : List Cl) : Nat → St → Option St
  | 0, _ => none
  | f + 1, s => match s.queue with
    | [] => some s
    | c :: q =>
      if s.triggers ≥ maxTriggers cfg cls.length then some s
      else
        let k := getU cfg s c
        let s := { s with queue := q }
        if k > maxk then loop cfg cls f s
        else loop cfg cls f (visit cfg cls k (scount cls c) (occs cls c) s)

/-- The clauses that are used, Reasoner/rmain.c:1353-1357: all of them if there is no table (analyze.c:534), and
otherwise those with a number. -/
def used (cfg : Cfg) (cls : List Cl) (s : St) : List Cl :=
  if cfg.nb = 0 then cls else cls.filter fun C => decide (getC cfg s C ≠ 0)

/-- wr_analyze_sine and the choice of clauses -/
def sine (cfg : Cfg) (cls : List Cl) (rounds : Nat) : Option (List Cl) := (loop cfg cls rounds (start cfg cls)).map (used cfg cls)

end Gkc.Sine
