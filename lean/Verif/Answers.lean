import Verif.Clausal
import Verif.Saturate
import Verif.Vec
/-
Questions and answers: formulas with the role "question" (Parser/jsparse.c:1184-1197) and the list of
answers found (Reasoner/history.c:2465-2590).
-/
namespace Gkc
open Clausify

/-- a formula of the problem, or a question with its free variables in the order of the list
`pp->freevars` -/
inductive Entry where
  | item (it : Item)
  | ask (fv : List Nm) (q : Frm)

/-- A question becomes a clause that gives the values of its variables: Parser/jsparse.c:1184-1197.  With
free variables `fv` it is `all fv: q => $ans(fv)`, without it is the negation of `q`. -/
def Entry.toItem : Entry → Item
  | .item it => it
  | .ask [] q => ⟨true, q⟩
  | .ask (v :: vs) q => ⟨false, .all (v :: vs) (.imp [q, .at (.app (uri "$ans") ((v :: vs).map .nm))])⟩

/-! ### The list of answers -/

/-- An answer clause as it is stored: a fact clause is the atom itself (positive), a rule clause has
literals (Reasoner/derive.c:1680-1757). -/
inductive AnsCl where
  | fact (a : Term)
  | rule (ls : List Lit)
  deriving DecidableEq

/-- What is registered: a clause, or NULL where the empty clause was found
(`wr_register_answer(g,NULL,...)`, Reasoner/derive.c:131, 166, 207) and for a picked rule clause with
nothing but answer literals (Reasoner/rgenloop.c:345-353). -/
abbrev Answer := Option AnsCl

/-- the loop of wr_same_answers over the literals, Reasoner/history.c:2570-2588; the lengths are
equal -/
def sameLits : List Lit → List Lit → Bool
  | x :: xs, y :: ys => if x.neg != y.neg || !(x.atom.beq y.atom) then false else sameLits xs ys
  | _, _ => true

/-- wr_same_answers, Reasoner/history.c:2532-2590; `none`: wg_rec_is_rule_clause (Reasoner/clterm.h:168)
reads the header of a record at NULL.  Of two clauses the first is looked at first, and both always
are. -/
def sameAnswers : Answer → Answer → Option Bool
  | some (.fact a), some (.fact b) => some (a.beq b)
  | some (.rule a), some (.rule b) => some (if a.length != b.length then false else sameLits a b)
  | some _, some _ => some false
  | _, _ => none

/-- wr_register_answer, Reasoner/history.c:2465-2498: the loop over the answers `old` not compared yet;
`all` are all of them; `none`: undefined -/
def registerGo (new : Answer) (all : List Answer) : List Answer → Option (List Answer)
  | [] => some (all ++ [new])
  | a :: old => match sameAnswers a new with
    | none => none
    | some true => some all
    | some false => registerGo new all old

/-- wr_register_answer (histories are stored, there is space) -/
def register (all : List Answer) (new : Answer) : Option (List Answer) := registerGo new all all

/-- one after another -/
def registerAll : List Answer → List Answer → Option (List Answer)
  | all, [] => some all
  | all, a :: as => (register all a).bind (registerAll · as)

/-- wr_enough_answers, Reasoner/history.c:2500-2510 -/
def enough (required : Nat) (all : List Answer) : Bool := decide (required ≤ all.length)

/-- The two stores of wr_register_answer, Reasoner/history.c:2493-2496.  Both are given the pointer
`answers` that was read at the start; `none` if the first store moved the vector, as the second would
then use freed memory. -/
def storeAnswer (junk : Nat → Int) (v : List Int) (cl hist : Int) : Option (List Int) :=
  match Vec.rd v 0, Vec.rd v 1 with
  | some len, some count =>
    if len < count then none
    else (Vec.cvecStore junk v count.toNat cl).bind fun v' => Vec.cvecStore junk v' (count.toNat + 1) hist
  | _, _ => none

/-- one after another -/
def storeAnswers (junk : Nat → Int) : List Int → List (Int × Int) → Option (List Int)
  | v, [] => some v
  | v, p :: ps => (storeAnswer junk v p.1 p.2).bind (storeAnswers junk · ps)

end Gkc
