import Verif.Index
import Verif.Vec
/-
Propositional instances of clauses: Reasoner/prop.c wr_cl_create_propinst and what it calls, and the
file written for the external solver.  They are made when the strategy has `instgen` or `propgen`
(Reasoner/guide.c:328, 351): all variables of a clause are replaced by one constant and the atoms so
obtained are numbered.

Simplifications: memory allocation succeeds, except that growing `prop_varvals` while a clause is
worked on is the outcome `ub`, because wr_cl_create_propinst then reads through the old address;
a bucket of the table is the list of its entries (growable vectors: Vec.lean, C25); histories are left
out.
-/
namespace Gkc.PropInst

/-- wr_term_basehash with `use_prop_constant` on, Reasoner/hash.c:357-445: a variable gets the hash
of the constant `g` put through the last line (hash.c:444) a second time.  `h` is wr_term_basehash of
constants. -/
def propBase (h : Const → BitVec 64) (g : Const) : Nat ⊕ Const → BitVec 64
  | .inl _ => BitVec.ofInt 64 (1 + (h g).toInt.tmod 999997)
  | .inr c => h c

/-- the position of the bucket, Reasoner/prop.c:359-363 and 427-431; NROF_CLTERM_HASHVEC_ELS is
1000000 -/
def slot (hash : Int) : Nat :=
  let hash := if hash < 0 then 0 - hash else hash
  let hash := if hash + 1 ≥ 1000000 then hash.tmod 999999 else hash
  (hash + 1).toNat

/-- wr_lit_hash with the constant, cut to an `int` -/
def atomSlot (h : Const → BitVec 64) (g : Const) (x : Term) : Nat :=
  slot ((Vec.termHash (propBase h g) x).truncate 32).toInt

mutual
/-- wr_equal_grounded_term, Reasoner/prop.c:876-955: equality of `x` with `xg` for its variables and
`y` with `yg` for its variables.  Equal words with equal constants (prop.c:891) denote equal terms,
for which the rest gives 1 too. -/
def eqG (xg yg : Const) : Term → Term → Bool
  | .var _, .var _ => xg == yg
  | .var _, .const d => xg == d
  | .const c, .var _ => c == yg
  | .const c, .const d => c == d
  | .app f as, .app k bs => if as.length != bs.length then false
      else if f != k then false else eqGL xg yg as bs
  | _, _ => false
/-- the field loop, Reasoner/prop.c:945-950 -/
def eqGL (xg yg : Const) : List Term → List Term → Bool
  | a :: as, b :: bs => if !eqG xg yg a b then false else eqGL xg yg as bs
  | [], _ => true
  | _, [] => true
end

/-- three words of a bucket: atom, constant, number -/
structure Entry where
  atom : Term
  gc : Const
  pv : Nat

/-- `prop_hash_atoms`, `prop_counter`, the length word of `prop_varvals`, the values, `prop_clauses`;
Reasoner/glb.c:277, 649-656 (NROF_PROP_VARVALS_ELS is 1000000) -/
structure PSt where
  bk : Nat → List Entry
  counter : Nat
  cap : Nat
  vals : Nat → Int
  cls : List (List Int)

/-- the start -/
def PSt.init : PSt := ⟨fun _ => [], 2, 1000000, fun _ => 0, []⟩

/-- wr_find_offset_prop_termhash, Reasoner/prop.c:414-462: the first equal entry -/
def findPv (g : Const) (x : Term) : List Entry → Option Nat
  | [] => none
  | e :: es => if eqG g e.gc x e.atom then some e.pv else findPv g x es

/-- wr_make_get_propvar, Reasoner/prop.c:235-276, with the read of the value that follows it
(prop.c:125): a new number above the length word makes wr_cvec_store move `prop_varvals`
(Reasoner/mem.c:386-424), and the local variable `varvals` keeps the old address: `none`. -/
def getPv (h : Const → BitVec 64) (g : Const) (s : PSt) (x : Term) : Option (Nat × PSt) :=
  match findPv g x (s.bk (atomSlot h g x)) with
  | some p => some (p, s)
  | none =>
    if s.counter ≤ s.cap then
      some (s.counter, { s with
        bk := fun b => if b = atomSlot h g x then s.bk b ++ [⟨x, g, s.counter⟩] else s.bk b
        counter := s.counter + 1
        vals := fun p => if p = s.counter then 0 else s.vals p })
    else none

/-- the search for the literal or its opposite, Reasoner/prop.c:150-165: `some true` present,
`some false` tautology -/
def scan (pv : Int) : List Int → Option Bool
  | [] => none
  | x :: xs => if x = pv then some true else if x = 0 - pv then some false else scan pv xs

/-- end of the loop over the literals -/
inductive LRes
  | ub
  /-- already true, or a tautology -/
  | drop (s : PSt)
  | done (store : List Int) (s : PSt)

/-- the loop over the literals, Reasoner/prop.c:107-174 -/
def litLoop (h : Const → BitVec 64) (g : Const) : List Lit → List Int → PSt → LRes
  | [], store, s => .done store s
  | l :: ls, store, s =>
    match getPv h g s l.atom with
    | none => .ub
    | some (p, s) =>
      let sign : Int := if l.neg then -1 else 1
      let pv : Int := if l.neg then 0 - (p : Int) else p
      if s.vals p ≠ 0 then
        if s.vals p = sign then .drop s else litLoop h g ls store s
      else match scan pv store with
        | some true => litLoop h g ls store s
        | some false => .drop s
        | none => litLoop h g ls (store ++ [pv]) s

/-- outcome of wr_cl_create_propinst -/
inductive Res
  | ub
  /-- 2: contradiction found -/
  | contra
  | ok (s : PSt)

/-- wr_cl_create_propinst, Reasoner/prop.c:62-233; `g` is `prop_constant` -/
def create (h : Const → BitVec 64) (g : Const) (cl : List Lit) (s : PSt) : Res :=
  match litLoop h g cl [] s with
  | .ub => .ub
  | .drop s => .ok s
  | .done [] _ => .contra
  | .done [x] s => .ok { s with
      cls := s.cls ++ [[x]]
      vals := fun p => if p = x.natAbs then (if x < 0 then -1 else 1) else s.vals p }
  | .done store s => .ok { s with cls := s.cls ++ [store] }

/-- the clauses are handed over one after another, each with the constant chosen then
(Reasoner/prop.c:82-86) -/
def feed (h : Const → BitVec 64) : List (Const × List Lit) → PSt → Res
  | [], s => .ok s
  | c :: cs, s => match create h c.1 c.2 s with
    | .ok s => feed h cs s
    | r => r

/-- wr_make_prop_file, Reasoner/prop.c:1250-1281: the two numbers of the line `p cnf`, then the
clauses; `prop_varvals[1]` is the next free position, that is `prop_counter` -/
def file (s : PSt) : Nat × Nat × List (List Int) := (s.counter, s.cls.length, s.cls)

/-- the two files of wr_prop_solve_current; their names are the same for every process
(Reasoner/glb.h:128-129, the calls of mktemp at prop.c:1199-1200 are commented out).  `out`: the solver
wrote the line "s UNSATISFIABLE". -/
structure Files where
  inp : Option (List (List Int))
  out : Option Bool

/-- what one process does in wr_prop_solve_current, Reasoner/prop.c:1183-1247: it writes its clauses,
runs the solver on the file, reads the output -/
inductive Op
  | write (cls : List (List Int))
  | solve
  | read

/-- one operation of process `i`; `solver` is the external program, `verd i` the last result of
process `i`: a proof is reported.  Removing the files after reading (prop.c:1243-1244) makes no
difference here. -/
def Op.run (solver : List (List Int) → Bool) (i : Nat) (o : Op) (s : Files × (Nat → Bool)) : Files × (Nat → Bool) :=
  match o with
  | .write cls => ({ s.1 with inp := some cls }, s.2)
  | .solve => ({ s.1 with out := some ((s.1.inp.map solver).getD false) }, s.2)
  | .read => (s.1, fun j => if j = i then s.1.out.getD false else s.2 j)

/-- a sequence of operations of several processes -/
def runOps (solver : List (List Int) → Bool) : List (Nat × Op) → Files × (Nat → Bool) → Files × (Nat → Bool)
  | [], s => s
  | (i, o) :: os, s => runOps solver os (o.run solver i s)

end Gkc.PropInst
