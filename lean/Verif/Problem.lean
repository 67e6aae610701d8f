import Verif.Parse
import Verif.Clausal
import Verif.JsLogic
/-
From the lists of the parser to formulas for the clausifier and clauses: wr_preprocess_clauselist with the functions below it
(Parser/dbparse.c:346-745, 899-970), without conversion and without source storing, for a file that is not an included one.

As in Frm.lean a URI with a second string is given another type number: 107 for "c" (a name in quotes), 207 for "#" (a distinct
object).  Included files (Parser/dbparse.c:972-1090) are not modelled: the statement is kept as `incl`.
-/
namespace Gkc.Pb
open Gkc.Conv (Lst Atm)
open Gkc.Js (Jv readF)
open Gkc.Clausify (Nm Frm Item FCl flat)

/-- type and string of an atom, Db/dbmpool.c:772-800, Parser/dbgenparse.h:45-51 -/
def nmOf (a : Atm) : Nm :=
  match a.s2 with
  | none => ⟨a.ty, a.s1⟩
  | some s => ⟨a.ty + (if s = "c" then 100 else 200), a.s1⟩

mutual
/-- the list as the clausifier sees it -/
def seen : Lst → Jv
  | .atom a => .atom (nmOf a)
  | .list l => .list (seenL l)
/-- its members -/
def seenL : List Lst → List Jv
  | [] => []
  | x :: xs => seen x :: seenL xs
end

/-- wg_islog_uri, Db/dbmpool.c:894-899 -/
def isUri (s : String) : Lst → Bool
  | .atom a => a.ty == 7 && a.s1 == s && a.s2.isNone
  | .list _ => false

/-- wr_is_tptp_cnf_clause, wr_is_tptp_fof_clause and wr_is_tptp_import_clause, Parser/dbparse.c:670-698: a list with this head and
exactly `n` members after it -/
def isStmt (s : String) (n : Nat) : Lst → Bool
  | .list (h :: r) => isUri s h && r.length == n
  | _ => false

mutual
/-- wr_frm_has_quantifier, Parser/dbparse.c:701-711 -/
def hasQuant : Lst → Bool
  | .atom a => a.ty == 13 && (a.s1 == "all" || a.s1 == "exists")
  | .list l => hasQuantL l
/-- in one of them -/
def hasQuantL : List Lst → Bool
  | [] => false
  | x :: xs => hasQuant x || hasQuantL xs
end

/-- what becomes of a statement: a formula for the clausifier, a formula that is flattened as it is, a file to be included; an error;
or it is not a formula (left out, as in Frm.lean); or the role is no atom and a string is read from a list -/
inductive Given where
  | item (it : Item)
  | clause (f : Frm)
  | incl
  | error
  | unread
  | undef

/-- a formula, or not one -/
def readAs (k : Frm → Given) (x : Lst) : Given :=
  match readF (seen x) with
  | some f => k f
  | none => .unread

/-- wr_preprocess_tptp_fof_clause, Parser/dbparse.c:899-970: a conjecture is negated (`Item.prepared`) -/
def fofItem (role x : Lst) : Given :=
  match role with
  | .atom a => readAs (fun f => .item ⟨a.s1 == "conjecture", f⟩) x
  | .list _ => .undef

/-- wr_preprocess_tptp_cnf_clause, Parser/dbparse.c:713-738 -/
def cnfItem (x : Lst) : Given := if hasQuant x then .error else readAs .clause x

/-- one round of the loop of wr_preprocess_clauselist, Parser/dbparse.c:420-640: the tests in the order of the code; anything that is no
statement of TPTP is a formula of its own (591-637) -/
def given (x : Lst) : Given :=
  if isStmt "include" 1 x then .incl
  else if isStmt "cnf" 3 x then match x with
    | .list [_, _, _, f] => cnfItem f
    | _ => .unread
  else if isStmt "fof" 3 x then match x with
    | .list [_, _, r, f] => fofItem r f
    | _ => .unread
  else readAs (fun f => .item ⟨false, f⟩) x

/-- what the parser made of a text, with at most `n` rounds: the statements, the last one first (Parser/dbotter.y:74-100) -/
def statements (n : Nat) (txt : List Char) : Option (List Lst) :=
  match Ps.parse n txt with
  | some (.accept none) => some []
  | some (.accept (some (.tree (.list l)))) => some l
  | _ => none

/-- the formulas for the clausifier -/
def itemsOf (gs : List Given) : List Item := gs.filterMap fun g => match g with
  | .item it => some it
  | _ => none

/-- the formulas that are flattened as they are -/
def clausesOf (gs : List Given) : List Frm := gs.filterMap fun g => match g with
  | .clause f => some f
  | _ => none

end Gkc.Pb
