import Verif.History
/-
The JSON output of the prover (option -json): the document written by wr_show_result, the lines written by
wr_strprint_one_history and the texts of clauses and terms written by Printer/dbotterprint.c.

In this mode `print_json` and `print_clauses_json` are 1 and the TPTP flags 0 (Reasoner/rmain.c:445-465,
Reasoner/init.c:107-127); `print_fof_conversion_proof` is 0.

Simplifications: the text buffer is always large enough; atoms are records whose first field is a symbol
(the parser wraps proposition symbols, Parser/dbparse.c:1330-1332); values are those the parsers make
(no XML literals, characters, dates and times); a character is one Unicode character.
-/
namespace Gkc.Json
open Gkc.Hist (Line Item Rule W)

/-! ### Numbers -/

/-- the digit `d` -/
def digit (d : Nat) : Char := Char.ofNat (48 + d)

/-- `%d` of a nonnegative number -/
def dec (n : Nat) : List Char :=
  if n < 10 then [digit n] else dec (n / 10) ++ [digit (n % 10)]
termination_by n
decreasing_by omega

/-- `%d` -/
def decInt (z : Int) : List Char := if z < 0 then '-' :: dec z.natAbs else dec z.natAbs

/-- the six digits `%f` writes after the point -/
def six (n : Nat) : List Char :=
  [digit (n / 100000 % 10), digit (n / 10000 % 10), digit (n / 1000 % 10), digit (n / 100 % 10),
   digit (n / 10 % 10), digit (n % 10)]

/-! ### Terms and clauses -/

/-- a simple value -/
inductive Sym
  | null
  | int (v : BitVec 64)
  /-- a finite double: sign, integer part and millionths as `%f` rounds them -/
  | dbl (neg : Bool) (ip fp : Nat)
  /-- infinity and not-a-number: the word `%f` writes -/
  | nonfinite (word : List Char)
  | str (s : List Char)
  /-- name and prefix -/
  | uri (name : List Char) (pre : Option (List Char))
  | var (n : Nat)
  | anon (name : List Char)
deriving DecidableEq, Repr

/-- a term: simple, or a record with a first field and the others -/
inductive PT
  | leaf (s : Sym)
  | node (hd : PT) (args : List PT)

/-- a literal -/
structure PLit where
  neg : Bool
  head : Sym
  args : List PT

/-- wg_print_dquoted, Printer/dbotterprint.c:1183-1217: quotes get a backslash, nothing else does -/
def escq : List Char → List Char
  | [] => []
  | c :: r => if c = '"' then '\\' :: '"' :: escq r else c :: escq r

/-- `s` between quotes -/
def quoted (s : List Char) : List Char := '"' :: (s ++ ['"'])

/-- name of a variable, wg_nice_strprint_var, Printer/dbotterprint.c:1262-1299 -/
def varName (n : Nat) : List Char :=
  if n = 1000 then ['X', '1'] else if n = 1001 then ['Y', '1'] else if n = 1002 then ['Z', '1']
  else if n = 1003 then ['U', '1'] else if n = 1004 then ['V', '1'] else if n = 1005 then ['W', '1']
  else if n = 2000 then ['X'] else if n = 2001 then ['Y'] else if n = 2002 then ['Z']
  else if n = 2003 then ['U'] else if n = 2004 then ['V'] else if n = 2005 then ['W']
  else if n = 3000 then ['X', '3'] else if n = 3001 then ['Y', '3'] else if n = 3002 then ['Z', '3']
  else if n = 3003 then ['U', '3'] else if n = 3004 then ['V', '3'] else if n = 3005 then ['W', '3']
  else dec n

/-- EMPTYSTRING, Db/dballoc.h -/
def emptyName : List Char := "$emptystr".toList

/-- wr_strprint_simpleterm_otter, Printer/dbotterprint.c:815-1060, in JSON -/
def symText (neg : Bool) : Sym → List Char
  | .null => "NULL".toList
  | .int v => decInt (v.truncate 32).toInt
  | .dbl s ip fp => (if s then ['-'] else []) ++ dec ip ++ '.' :: six fp
  | .nonfinite w => w
  | .str s => quoted ((if neg then ['-'] else []) ++ ':' :: s)
  | .uri name none =>
    if neg then
      if '"' ∈ name then quoted ('-' :: escq name) else quoted ('-' :: name)
    else
      if name = emptyName then ['"', '"']
      else if '"' ∈ name then quoted (escq name) else quoted name
  | .uri name (some pre) =>
    let u : List Char := if pre = ['#'] then ['#', ':'] else []
    let m : List Char := if neg then ['-'] else []
    if '"' ∈ name then quoted (m ++ u ++ escq name) else quoted (m ++ u ++ name)
  | .var n => quoted ('?' :: ':' :: varName n)
  | .anon _ => if neg then quoted ['-'] else ['"', '"']

/-- the words for one-character operators, Printer/dbotterprint.c:770-785 -/
def opWord (name : List Char) : Option (List Char) :=
  if name = ['+'] then some "$sum".toList
  else if name = ['*'] then some "$product".toList
  else if name = ['-'] then some "$difference".toList
  else if name = ['/'] then some "$quotient".toList
  else if name = ['<'] then some "$less".toList
  else none

/-- a simple field of a term, Printer/dbotterprint.c:764-792 -/
def fieldSym : Sym → List Char
  | .uri name pre =>
    match opWord name with
    | some w => w
    | none => symText false (.uri name pre)
  | s => symText false s

mutual
/-- wr_strprint_term_otter, Printer/dbotterprint.c:733-806, in JSON -/
def termText : PT → List Char
  | .leaf s => symText false s
  | .node hd args => '[' :: (fieldText hd ++ ',' :: (argsText args ++ [']']))
/-- one field of a term -/
def fieldText : PT → List Char
  | .leaf s => fieldSym s
  | .node hd args => '[' :: (fieldText hd ++ ',' :: (argsText args ++ [']']))
/-- the fields behind the first -/
def argsText : List PT → List Char
  | [] => []
  | a :: r => fieldText a ++ moreText r
/-- the fields behind the second -/
def moreText : List PT → List Char
  | [] => []
  | a :: r => ',' :: (fieldText a ++ moreText r)
end

/-- texts with a text between them -/
def joinWith (sep : List Char) : List (List Char) → List Char
  | [] => []
  | [a] => a
  | a :: b :: r => a ++ sep ++ joinWith sep (b :: r)

/-- wr_strprint_atom_otter, Printer/dbotterprint.c:667-731, in JSON: the sign is part of the name; arguments
which are not records are written by the simple printer, so operators have no special words -/
def litText (l : PLit) : List Char :=
  '[' :: (symText l.neg l.head ++ (if l.args = [] then [] else ',' :: joinWith [','] (l.args.map termText)) ++ [']'])

/-- wr_strprint_rule_clause_otter and wr_strprint_fact_clause_otter, Printer/dbotterprint.c:485-632 -/
def clauseText (c : List PLit) : List Char := '[' :: (joinWith [',', ' '] (c.map litText) ++ [']'])

/-! ### Lines -/

/-- name field of an input history -/
inductive InName
  | none
  | str (s : List Char)
  | int (v : BitVec 64)

/-- decoded priority of a history, Reasoner/history.h:125-132 -/
def roleText (p : Nat) : Option (List Char) :=
  if p = 1 then some "goal".toList
  else if p = 2 then some "assumption".toList
  else if p = 3 then some "fromga".toList
  else if p = 4 then some "fromgoal".toList
  else if p = 5 then some "fromassumption".toList
  else if p = 10 then some "axiom".toList
  else if p = 11 then some "fromaxiom".toList
  else if p = 12 then some "extaxiom".toList
  else none

/-- wr_strprint_history_extra, Reasoner/history.c:2374-2417, in JSON -/
def extraText (p : Nat) : List Char :=
  match roleText p with
  | some r => ", ".toList ++ quoted r ++ "], ".toList
  | none => if p ≠ 0 then ", \"dp\", ".toList ++ dec p ++ "], ".toList else "], ".toList

/-- what the lines refer to: texts of clauses and terms, names and priorities of the history behind a
line, and the flag `print_history_extra` -/
structure Env where
  clause : Nat → List PLit
  term : W → PT
  name : Line → InName
  prio : Line → Nat
  extra : Bool

/-- wr_strprint_clause, Printer/dbotterprint.c:435-461 -/
def clText (e : Env) : Option Nat → List Char
  | some c => clauseText (e.clause c)
  | none => "false".toList

/-- one premise, Reasoner/history.c:2035-2355: a number, or a list of the number, positions and side -/
def itemText (e : Env) : Item → List Char
  | .ref n [] none => dec n
  | .ref n ps side =>
    '[' :: (dec n ++ (ps.flatMap (fun p => ',' :: dec p)) ++
      (match side with | some true => ",\"L\"".toList | some false => ",\"R\"".toList | none => []) ++ [']'])
  | .term w => termText (e.term w)
  | .subst v w => '[' :: '"' :: 'V' :: (dec v ++ '"' :: ',' :: (termText (e.term w) ++ [']']))

/-- name of the rule in a line -/
def ruleText : Rule → List Char
  | .input => "in".toList
  | .mp => "mp".toList
  | .instgen => "instgen".toList
  | .fmp => "fmp".toList
  | .merge => "merge".toList
  | .refl => "r=".toList
  | .para => "=".toList
  | .simp => "simp".toList
  | .inst => "inst".toList
  | .extprop => "extprop".toList
  | .arithinst => "arithinst".toList
  | .unknown => []

/-- the beginning of a line: newline, number, name of the rule -/
def lineHead (l : Line) : List Char := '\n' :: '[' :: (dec l.num ++ ", [".toList ++ quoted (ruleText l.rule))

/-- a substitution item -/
def isSubst : Item → Bool
  | .subst _ _ => true
  | _ => false

/-- the end of the list with the rule; `plain` is written when `print_history_extra` is off -/
def closeText (e : Env) (l : Line) (plain : List Char) : List Char :=
  if e.extra then extraText (e.prio l) else plain

/-- wr_strprint_one_history, Reasoner/history.c:1802-2372, in JSON -/
def lineText (e : Env) (l : Line) : List Char :=
  match l.rule with
  | .input =>
    lineHead l ++
      (match e.name l with
        | .none => []
        | .str s => ", ".toList ++ quoted s
        | .int v => ',' :: decInt (v.truncate 32).toInt) ++
      closeText e l "], ".toList ++ clText e l.cl ++ [']']
  | .arithinst =>
    match l.items with
    | [] => lineHead l
    | p :: rest =>
      lineHead l ++ ", ".toList ++ itemText e p ++ ", [".toList ++
        joinWith [','] ((rest.takeWhile isSubst).map (itemText e)) ++ "]".toList ++
        ((rest.dropWhile isSubst).flatMap (fun i => ", ".toList ++ itemText e i)) ++
        "], ".toList ++ clText e l.cl ++ [']']
  | .extprop => lineHead l ++ "], 0]".toList ++ [']']
  | .unknown => [']']
  | .merge =>
    lineHead l ++ ", ".toList ++ joinWith ", ".toList (l.items.map (itemText e)) ++
      closeText e l "] ".toList ++ clText e l.cl ++ [']']
  | .inst =>
    lineHead l ++ ", ".toList ++ joinWith ", ".toList (l.items.map (itemText e)) ++
      closeText e l "] ".toList ++ clText e l.cl ++ [']']
  | _ =>
    lineHead l ++ ", ".toList ++ joinWith ", ".toList (l.items.map (itemText e)) ++
      closeText e l "], ".toList ++ clText e l.cl ++ [']']

/-! ### Document -/

/-- the lines of one proof: a comma behind all but the last, Reasoner/history.c:1571-1612 -/
def linesText (e : Env) : List Line → List Char
  | [] => []
  | [l] => lineText e l
  | l :: m :: r => lineText e l ++ ',' :: linesText e (m :: r)

/-- one answer with its proof, Reasoner/history.c:1397-1515 without the last bracket -/
def answerText (e : Env) (a : Option Nat × List Line) : List Char :=
  "{\n".toList ++
    (match a.1 with
      | some c => "\"answer\": ".toList ++ clauseText (e.clause c) ++ ",\n".toList
      | none => []) ++
    "\"proof\":\n[".toList ++ linesText e a.2 ++ "\n]}".toList

/-- all answers: a comma if more are coming, Reasoner/history.c:1505-1512 -/
def answersText (e : Env) : List (Option Nat × List Line) → List Char
  | [] => []
  | [a] => answerText e a ++ ['\n']
  | a :: b :: r => answerText e a ++ ",\n".toList ++ answersText e (b :: r)

/-- the document of wr_show_result when a proof was found, Reasoner/history.c:1326-1336, 1384-1394,
1516-1520; `level` is `print_level_flag` -/
def docText (e : Env) (level : Nat) (as : List (Option Nat × List Line)) : List Char :=
  (if 12 ≤ level then "\n\n".toList else []) ++
  (if level < 10 then "{\"result\": \"proof found\"}\n".toList
   else "{\"result\": \"proof found\",\n".toList ++ "\n\"answers\": [\n".toList ++ answersText e as ++ "]}\n".toList)

end Gkc.Json
