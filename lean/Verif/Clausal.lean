import Verif.Distribute
import Verif.Saturate
/-
From formulas to stored clauses: wr_preprocess_tptp_fof_clause, wr_clausify_formula and
wr_parse_clause with the functions below it (Parser/dbparse.c, Parser/dbclausify.c).

As in Clausify.lean `none` stands for an input that is rejected with a message.  Types of pool atoms
(Db/dbdata.h:60-74): 3 integer, 7 uri, 13 anonymous constant, 14 variable.  A uri with a second string
has type 107 for the string "c" (a quoted name, Parser/dbgenparse.h:47) and 207 for "#" (a distinct
symbol, Parser/dbgenparse.h:48).  Doubles, dates, times and list notation (`$$lst`) are left out: `none`.
-/
namespace Gkc.Clausify
open Gkc

/-- parse_caps_as_var and parse_question_as_var, Reasoner/glb.c:138-139 -/
structure VarCfg where
  caps : Bool
  quest : Bool

/-- does the string begin like a variable, Parser/dbparse.c:835-838, 1720-1721 -/
def varStr (c : VarCfg) (s : String) : Bool :=
  match s.toList with
  | [] => false
  | ch :: _ => (c.caps && ch.isUpper) || (c.quest && ch == '?')

/-- a pool atom that is a variable, Parser/dbparse.c:832-838 -/
def isVar (c : VarCfg) (n : Nm) : Bool := n.ty == 14 || (n.ty == 7 && varStr c n.str)

/-! ### Free variables -/

mutual
/-- wr_parse_freeoccs on terms, Parser/dbparse.c:816-885: a head does not count, but a propositional
symbol does -/
def freeT (c : VarCfg) (vs : List Nm) : FT → List Nm
  | .nm n => if isVar c n && !inVars vs n then [n] else []
  | .app _ as => freeTL c vs [] as
/-- the loop over arguments -/
def freeTL (c : VarCfg) (vs : List Nm) (acc : List Nm) : List FT → List Nm
  | [] => acc
  | a :: as => freeTL c vs (addOccs acc (freeT c vs a)) as
end

mutual
/-- wr_parse_freeoccs on formulas, Parser/dbparse.c:816-885.  In a quantifier the new list of bound
variables is what remains of its own variables without the ones bound outside
(Parser/dbparse.c:862): outer variables are forgotten, so they are reported as free. -/
def freeF (c : VarCfg) (vs : List Nm) : Frm → List Nm
  | .at t => freeT c vs t
  | .neg f => freeF c vs f
  | .par f => freeF c vs f
  | .all us f => freeF c (varsSubset us vs) f
  | .ex us f => freeF c (varsSubset us vs) f
  | .eqv a b => addOccs (freeF c vs a) (freeF c vs b)
  | .and fs => freeL c vs [] fs
  | .or fs => freeL c vs [] fs
  | .imp fs => freeL c vs [] fs
/-- the loop over the arguments of a connective -/
def freeL (c : VarCfg) (vs : List Nm) (acc : List Nm) : List Frm → List Nm
  | [] => acc
  | f :: fs => freeL c vs (addOccs acc (freeF c vs f)) fs
end

/-- the formula with its free variables quantified, Parser/dbclausify.c:116-122 -/
def close (c : VarCfg) (f : Frm) : Frm :=
  if (freeF c [] f).isEmpty then f else .all (freeF c [] f) f

/-! ### wr_clausify_formula -/

/-- the steps after closing, Parser/dbclausify.c:133-184; `sn` and `nr` are the numbers of Skolem
functions and of new predicates in the database header, new variables are numbered from 1 -/
def clausifySteps (strat : Bool) (fuel sn nr : Nat) (f : Frm) : Option (Frm × Nat × Nat) :=
  (negpush true f).bind fun g => (mini g).bind fun g => (skol [] 0 sn g).bind fun (g, _, sn') =>
  (dist strat fuel false g ⟨none, nr⟩).map fun (g, s) => (withDefs g s, sn', s.nr)

/-- wr_clausify_formula, Parser/dbclausify.c:85-195: an atomic formula is returned as it is; for a
formula in parentheses the test `!wg_rest(db,frm)` comes after free variables were put in front
(123, 126), so it is rejected if it has any. -/
def clausify (c : VarCfg) (strat : Bool) (fuel sn nr : Nat) : Frm → Option (Frm × Nat × Nat)
  | .at t => some (.at t, sn, nr)
  | .par f => if (freeF c [] (.par f)).isEmpty then clausify c strat fuel sn nr f else none
  | f => clausifySteps strat fuel sn nr (close c f)

/-- a formula of the problem; `conj` for the role conjecture -/
structure Item where
  conj : Bool
  frm : Frm

/-- a conjecture is negated, Parser/dbparse.c:932-937 -/
def Item.prepared (it : Item) : Frm := if it.conj then .neg it.frm else it.frm

/-- The formulas one after another, with the numbers of Skolem functions and new predicates carried
over; a rejected formula may have used up numbers.  The result is the list of clauses after
wr_flatten_logclause (Parser/dbparse.c:1151). -/
inductive Clausifies (c : VarCfg) (strat : Bool) (fuel : Nat) : Nat → Nat → List Item → List FCl → Prop
  | nil {sn nr : Nat} : Clausifies c strat fuel sn nr [] []
  | one {sn nr sn' nr' : Nat} {it : Item} {its : List Item} {g : Frm} {cs ds : List FCl}
      (h : clausify c strat fuel sn nr it.prepared = some (g, sn', nr')) (hf : flat g = some cs)
      (r : Clausifies c strat fuel sn' nr' its ds) : Clausifies c strat fuel sn nr (it :: its) (cs ++ ds)
  | skip {sn nr sn' nr' : Nat} {it : Item} {its : List Item} {ds : List FCl} (hs : sn ≤ sn') (hn : nr ≤ nr')
      (r : Clausifies c strat fuel sn' nr' its ds) : Clausifies c strat fuel sn nr (it :: its) ds

/-- the same when no formula is rejected -/
def clausifyAll (c : VarCfg) (strat : Bool) (fuel : Nat) : Nat → Nat → List Item → Option (List FCl)
  | _, _, [] => some []
  | sn, nr, it :: its => (clausify c strat fuel sn nr it.prepared).bind fun (g, sn', nr') =>
    (flat g).bind fun cs => (clausifyAll c strat fuel sn' nr' its).map (cs ++ ·)

/-! ### Building clauses -/

/-- wg_parser_should_quote, Parser/dbparse.c:1839-1866, for one character; bytes above 127 are
negative as `char` -/
def quoteChar (ch : Char) : Bool :=
  if ch == '$' || ch == '_' then false
  else ch.toNat < 48 || (57 < ch.toNat && ch.toNat < 64) || (90 < ch.toNat && ch.toNat < 97) || 122 < ch.toNat

/-- wg_parser_should_quote, Parser/dbparse.c:1839-1866 -/
def shouldQuote (s : String) : Bool :=
  match s.toList with
  | '0' :: _ => true
  | cs => cs.any quoteChar

/-- value of a string of decimal digits -/
def decimal (s : String) : Nat := s.toList.foldl (fun v ch => 10 * v + (ch.toNat - 48)) 0

/-- the value of `strtol` stored in an `int`, Parser/dbparse.c:1681-1698 (gcc keeps the low 32 bits); an
error from 2^63 on -/
def intOf (s : String) : Option Int :=
  if s.toList ≠ [] ∧ s.toList.all Char.isDigit then
    if (decimal s : Int) < 2 ^ 63 then some (((decimal s : Int) + 2 ^ 31) % 2 ^ 32 - 2 ^ 31) else none
  else none

/-- an anonymous constant, Parser/dbparse.c:1772-1798; `head` for position 0 -/
def anonOf (head : Bool) (s : String) : Const :=
  match s.toList with
  | '#' :: ':' :: cs => .str (String.ofList cs)
  | [ch] => if head && (ch == '=' || ch == '-' || ch == '+' || ch == '*' || ch == '/') then .sym s
      else if ch.isUpper || shouldQuote s then .qsym s else .sym s
  | ch :: _ => if ch.isUpper || shouldQuote s then .qsym s else .sym s
  | [] => .sym s

/-- wr_parse_primitive, Parser/dbparse.c:1647-1837, for what is not a variable; `head` for position 0 -/
def primOf (head : Bool) (n : Nm) : Option Const :=
  if n.ty = 3 then (intOf n.str).map .int
  else if n.ty = 7 then some (.sym n.str)
  else if n.ty = 107 then some (.qsym n.str)
  else if n.ty = 207 then some (.str n.str)
  else if n.ty = 13 then some (anonOf head n.str)
  else none

/-- the variable table of a clause, Parser/dbparse.c:1722-1745, 1806-1828: variables are told apart by
their strings; at most VARDATALEN (1000) of them -/
def varNr (vd : List String) (s : String) : Option (Nat × List String) :=
  if s ∈ vd then some (vd.idxOf s, vd) else if vd.length < 1000 then some (vd.length, vd ++ [s]) else none

/-- renaming of arithmetic functions, Parser/dbparse.c:1582-1592 -/
def renameF (f : Nm) : Nm :=
  if f.str = "$sum" then uri "+" else if f.str = "$difference" then uri "-"
  else if f.str = "$product" then uri "*" else if f.str = "$quotient" then uri "/" else f

mutual
/-- wr_parse_term with wr_parse_primitive, Parser/dbparse.c:1523-1645; a variable as head is left out -/
def buildT (c : VarCfg) (vd : List String) : FT → Option (Term × List String)
  | .nm n =>
    if isVar c n then (varNr vd n.str).map fun (v, vd) => (.var v, vd)
    else (primOf false n).map fun k => (.const k, vd)
  | .app f as =>
    if f.str = "$$lst" then none
    else (primOf true (renameF f)).bind fun k => (buildTL c vd as).map fun (as, vd) => (.app k as, vd)
/-- the loop over arguments -/
def buildTL (c : VarCfg) (vd : List String) : List FT → Option (List Term × List String)
  | [] => some ([], vd)
  | a :: as => (buildT c vd a).bind fun (a, vd) => (buildTL c vd as).map fun (as, vd) => (a :: as, vd)
end

/-- wr_parse_atom, Parser/dbparse.c:1436-1521; a propositional symbol becomes the argument of
PROPVAR_PREDSYMB, Parser/dbparse.c:1295-1300, 1345-1350 -/
def buildA (c : VarCfg) (vd : List String) : FT → Option (Term × List String)
  | .nm n => (buildT c vd (.nm n)).map fun (t, vd) => (.app (.sym "$pr") [t], vd)
  | .app p as => (primOf true p).bind fun k => (buildTL c vd as).map fun (as, vd) => (.app k as, vd)

/-- a literal, Parser/dbparse.c:1290-1385 -/
def buildL (c : VarCfg) (vd : List String) : Frm → Option (Lit × List String)
  | .at t => (buildA c vd t).map fun (t, vd) => (⟨false, t⟩, vd)
  | .neg (.at t) => (buildA c vd t).map fun (t, vd) => (⟨true, t⟩, vd)
  | _ => none

/-- the literals of a clause, Parser/dbparse.c:1285-1415 -/
def buildLs (c : VarCfg) (vd : List String) : List Frm → Option (List Lit)
  | [] => some []
  | l :: ls => (buildL c vd l).bind fun (l, vd) => (buildLs c vd ls).map (l :: ·)

/-- wr_parse_clause, Parser/dbparse.c:1197-1434; the table of variables is cleared for each clause
(1279-1282).  A flat clause that is not a list is the constant true. -/
def buildCl (c : VarCfg) : FCl → Option (List Lit)
  | .tru => buildLs c [] [.at (.nm ⟨13, "$true"⟩)]
  | .lits ls => buildLs c [] ls

/-- the loop of wr_parse_clauselist, Parser/dbparse.c:1112-1194, when no clause is rejected -/
def buildAll (c : VarCfg) : List FCl → Option (List (List Lit))
  | [] => some []
  | fc :: fcs => (buildCl c fc).bind fun ls => (buildAll c fcs).map (ls :: ·)

end Gkc.Clausify
