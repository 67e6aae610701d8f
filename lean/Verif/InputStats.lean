import Verif.AutoGuide
/-
The numbers that are counted while the clauses of a problem are looked through (Reasoner/analyze.c:59-115, 133-305), how those of the shared
database are added to them (Reasoner/analyze.c:1351-1456), and what make_auto_guide takes from them.

Simplified: a clause is well encoded; the counters are natural numbers, where the program has an int, and there is room for all variables.
Left out are the counts of chains, predicates, functions and constants.
-/
namespace Gkc.Is

/-- an atom: whether wr_equality_atom and wr_answer_lit hold. Reasoner/build.c:949-968 -/
structure Atom where
  eq : Bool
  ans : Bool
deriving DecidableEq

/-- the roles in the history of a clause. Reasoner/analyze.c:291-305 -/
inductive Role where
  | goal | assumption | fromGoalAssumption | fromGoal | fromAssumption | ax | fromAxiom | extAxiom | other
deriving DecidableEq

/-- a fact, which is an atom, or a rule, which is a list of atoms with their signs (true: negative). Reasoner/analyze.c:208, 225 -/
inductive Body where
  | fact (a : Atom)
  | rule (ls : List (Bool × Atom))

structure Clause where
  body : Body
  role : Role
  vars : Nat
  size : Nat
  depth : Nat

/-- a term or an atom: a value, a variable, or a record, in which the predicate or function is the first element -/
inductive Term where
  | const (n : Nat)
  | var (n : Nat)
  | app (ts : List Term)

/-- the size, the depth, and the variables that have been seen, which are those on the stack of variables -/
structure Walk where
  size : Nat
  maxdepth : Nat
  seen : List Nat
deriving DecidableEq

mutual
/-- wr_analyze_term. Reasoner/analyze.c:395-497 -/
def walk (depth : Nat) : Term → Walk → Walk
  | .const _, w => { w with size := w.size + 1 }
  | .var n, w => { w with size := w.size + 1, seen := if n ∈ w.seen then w.seen else w.seen ++ [n] }
  | .app ts, w => walkAll (depth + 1) ts { w with maxdepth := if depth + 1 > w.maxdepth then depth + 1 else w.maxdepth }
/-- the loop over the elements of a record. Reasoner/analyze.c:492-495 -/
def walkAll (depth : Nat) : List Term → Walk → Walk
  | [], w => w
  | t :: ts, w => walkAll depth ts (walk depth t w)
end

/-- a clause as it is stored -/
inductive Stored where
  | fact (a : Atom) (t : Term)
  | rule (ls : List (Bool × Atom × Term))

/-- the atoms are looked through with the same size, depth and variables. Reasoner/analyze.c:143, 224, 244-247, 256 -/
def Stored.walked : Stored → Walk
  | .fact _ t => walk 0 t ⟨0, 0, []⟩
  | .rule ls => (ls.map (·.2.2)).foldl (fun w t => walk 0 t w) ⟨0, 0, []⟩

/-- what is known about a stored clause before it is counted. Reasoner/analyze.c:141-143, 256 -/
def Stored.clause (c : Stored) (role : Role) : Clause :=
  ⟨match c with
    | .fact a _ => .fact a
    | .rule ls => .rule (ls.map fun l => (l.1, l.2.1)), role, c.walked.seen.length, c.walked.size, c.walked.maxdepth⟩

/-- the counters. Reasoner/glb.h:570-600 -/
structure In where
  clauses : Nat
  rules : Nat
  facts : Nat
  answers : Nat
  ground : Nat
  units : Nat
  horn : Nat
  pos : Nat
  neg : Nat
  posEq : Nat
  negEq : Nat
  unitPosEq : Nat
  minLength : Nat
  maxLength : Nat
  minDepth : Nat
  maxDepth : Nat
  minSize : Nat
  maxSize : Nat
  minVars : Nat
  maxVars : Nat
  exts : Nat
  axioms : Nat
  assumptions : Nat
  goals : Nat
  negGoals : Nat
  posGoals : Nat
  posunitGoals : Nat
deriving DecidableEq

/-- the counters at the beginning. Reasoner/glb.c:456-486 -/
def start : In := ⟨0, 0, 0, 0, 0, 0, 0, 0, 0, 0, 0, 0, 100000, 0, 100000, 0, 100000, 0, 100000, 0, 0, 0, 0, 0, 0, 0, 0⟩

/-- the local variables of wr_analyze_clause. Reasoner/analyze.c:141-142 -/
structure Local where
  ruleflag : Bool
  len : Nat
  anslit : Nat
  neglit : Nat
  poslit : Nat
  poseq : Nat
  negeq : Nat
  uniteq : Nat

/-- one atom of a rule. Reasoner/analyze.c:228-242 -/
def lit (v : Local) (l : Bool × Atom) : Local :=
  let v := if l.1 then { v with neglit := v.neglit + 1 } else { v with poslit := v.poslit + 1 }
  let v := if l.2.ans then { v with anslit := v.anslit + 1 } else v
  if l.2.eq then
    if l.1 then { v with negeq := v.negeq + 1 }
    else
      let v := { v with poseq := v.poseq + 1 }
      if v.len < 2 then { v with uniteq := v.uniteq + 1 } else v
  else v

/-- the atoms of a clause. Reasoner/analyze.c:208-255 -/
def atoms : Body → Local
  | .fact a => ⟨false, 1, if a.ans then 1 else 0, 0, 1, if a.eq then 1 else 0, 0, if a.eq then 1 else 0⟩
  | .rule ls => ls.foldl lit ⟨true, ls.length, 0, 0, 0, 0, 0, 0⟩

/-- add one if it holds -/
def up (b : Bool) (n : Nat) : Nat := if b then n + 1 else n

/-- wr_analyze_clause. Reasoner/analyze.c:271-305 -/
def analyze (s : In) (c : Clause) : In :=
  let v := atoms c.body
  { clauses := s.clauses + 1
    rules := up v.ruleflag s.rules
    facts := up (!v.ruleflag) s.facts
    answers := up (v.anslit != 0) s.answers
    ground := up (c.vars == 0) s.ground
    units := up (v.len == 1) s.units
    horn := up (decide (v.poslit ≤ 1)) s.horn
    neg := up (v.poslit == 0) s.neg
    pos := up (v.neglit == 0) s.pos
    posEq := up (v.poseq != 0) s.posEq
    negEq := up (v.negeq != 0) s.negEq
    unitPosEq := up (v.uniteq != 0) s.unitPosEq
    minLength := if v.len < s.minLength then v.len else s.minLength
    maxLength := if v.len > s.maxLength then v.len else s.maxLength
    minDepth := if c.depth < s.minDepth then c.depth else s.minDepth
    maxDepth := if c.depth > s.maxDepth then c.depth else s.maxDepth
    minSize := if c.size < s.minSize then c.size else s.minSize
    maxSize := if c.size > s.maxSize then c.size else s.maxSize
    minVars := if c.vars < s.minVars then c.vars else s.minVars
    maxVars := if c.vars > s.maxVars then c.vars else s.maxVars
    exts := up (c.role == .extAxiom) s.exts
    axioms := up (c.role == .ax || c.role == .fromAxiom || c.role == .other) s.axioms
    assumptions := up (c.role == .assumption || c.role == .fromAssumption) s.assumptions
    goals := up (c.role == .goal || c.role == .fromGoalAssumption || c.role == .fromGoal) s.goals
    negGoals := up (c.role == .goal && v.poslit == 0) s.negGoals
    posGoals := up (c.role == .goal && v.neglit == 0) s.posGoals
    posunitGoals := up (c.role == .goal && v.neglit == 0 && v.len == 1) s.posunitGoals }

/-- wr_analyze_clause_list. Reasoner/analyze.c:88-106 -/
def analyzeAll (cs : List Clause) : In := cs.foldl analyze start

/-- make_sum_input_stats; `none` is the division by zero in the average, where both numbers of clauses are ints.
    Reasoner/analyze.c:1354-1388, 1393-1454 -/
def sum (s : In) : Option In → Option In
  | none => some s
  | some k =>
    if s.clauses + k.clauses = 0 then none
    else some
      { clauses := s.clauses + k.clauses
        rules := s.rules + k.rules
        facts := s.facts + k.facts
        answers := s.answers + k.answers
        ground := s.ground + k.ground
        units := s.units + k.units
        horn := s.horn + k.horn
        pos := s.pos + k.pos
        neg := s.neg + k.neg
        posEq := s.posEq + k.posEq
        negEq := s.negEq + k.negEq
        unitPosEq := s.unitPosEq + k.unitPosEq
        minLength := if k.minLength < s.minLength then k.minLength else s.minLength
        maxLength := if k.maxLength > s.maxLength then k.maxLength else s.maxLength
        minDepth := if k.minDepth < s.minDepth then k.minDepth else s.minDepth
        maxDepth := if k.maxDepth > s.maxDepth then k.maxDepth else s.maxDepth
        minSize := if k.minSize < s.minSize then k.minSize else s.minSize
        maxSize := if k.maxSize > s.maxSize then k.maxSize else s.maxSize
        minVars := if k.minVars < s.minVars then k.minVars else s.minVars
        maxVars := if k.maxVars > s.maxVars then k.maxVars else s.maxVars
        exts := s.exts + k.exts
        axioms := s.axioms + k.axioms
        assumptions := s.assumptions + k.assumptions
        goals := s.goals + k.goals
        negGoals := s.negGoals + k.negGoals
        posGoals := s.posGoals + k.posGoals
        posunitGoals := s.posunitGoals + k.posunitGoals }

/-- the numbers of a problem: its own clauses, and those of the shared database if there is one. Reasoner/rmain.c:204, 240; analyze.c:1195 -/
def problem (own : List Clause) (shared : Option (List Clause)) : Option In := sum (analyzeAll own) (shared.map analyzeAll)

/-- what make_auto_guide takes from them. Reasoner/analyze.c:1199-1227, 1290-1294 -/
def toStats (own : List Clause) (t : In) : Ag.Stats :=
  ⟨t.clauses, t.units, t.posEq, t.negEq, t.axioms, t.goals, t.posunitGoals, t.negGoals, t.assumptions, (analyzeAll own).clauses⟩

end Gkc.Is
