import Verif.JsonSpec
import Verif.JsLogic
/-
Conversion of problems to JSON, `gkc -convert -json` (Parser/dbparse.c:344-655, 741-810, Printer/dbotterprint.c:1188-1220,
2063-2358, 2450-2467), and what the JSON parser makes of a JSON text (Parser/jsparse.c:405-582).

Simplified: the printing buffer is always made large enough (no name has a thousand double quotes, see wg_print_dquoted),
lists are proper, memory does not run out.  `pflag` is 0 in every call (2066, 2235-2332), so there are no line breaks;
`pos` is not 0 whenever `termflag` is set, so the test of `pos` (2158) is left out.  Included files include no further files.
-/
namespace Gkc.Conv
open Gkc.Json (J)
open Gkc.Js (Jv anon)
open Gkc.Clausify (Nm uri)

/-- an atom of the memory pool: type, first string, second string (Db/dbmpool.c:772-800) -/
structure Atm where
  ty : Nat
  s1 : String
  s2 : Option String
  deriving DecidableEq

/-- what the parser of formulas makes: atoms and lists; NULL is the empty list -/
inductive Lst where
  | atom (a : Atm)
  | list (l : List Lst)

/-- wg_islog_conn, Db/dbmpool.c:888-892 -/
def isLog (s : String) : Lst → Bool
  | .atom a => a.ty == 13 && a.s1 == s
  | .list _ => false

/-- wg_islogconnective, Db/dbmpool.c:871-886 -/
def isConnective : Lst → Bool
  | .atom a => a.ty == 13 && decide (a.s1 ∈ ["not", "and", "or", "imp", "eqv", "all", "exists"])
  | .list _ => false

/-- the test for an equality, Printer/dbotterprint.c:2228-2232 -/
def isEq : Lst → Bool
  | .atom a => (a.ty == 13 || a.ty == 7) && a.s1 == "="
  | .list _ => false

/-- wg_list_is_term, Printer/dbotterprint.c:2450-2467 -/
def listIsTerm : Lst → Bool
  | .list (.atom a :: r) => !isConnective (.atom a) && a.ty == 7 && r.all fun x => !isConnective x
  | _ => false

/-- wg_list_memberuri, Db/dbmpool.c:468-481 -/
def bound (bd : List Lst) (s : String) : Bool := bd.any fun x => match x with
  | .atom a => a.ty == 7 && a.s1 == s
  | .list _ => false

/-- the escapes of wg_print_dquoted, Printer/dbotterprint.c:1205-1212: only the double quote has one -/
def esc : List Char → List Char
  | [] => []
  | c :: cs => if c = '"' then '\\' :: '"' :: esc cs else c :: esc cs

/-- wg_print_dquoted, Printer/dbotterprint.c:1188-1220 -/
def dquoted (neg uniq : Bool) (s : String) : List Char :=
  '"' :: ((if neg then ['-'] else []) ++ (if uniq then ['#', ':'] else []) ++ esc s.toList ++ ['"'])

/-- isupper of the first character or a question mark, Printer/dbotterprint.c:2159 -/
def varLike (s : String) : Bool := match s.toList with
  | c :: _ => decide ('A' ≤ c ∧ c ≤ 'Z') || c == '?'
  | [] => false

/-- does the string begin with `p`? strncmp, Printer/dbotterprint.c:2150, 2153 -/
def begins (p s : String) : Bool := p.toList.isPrefixOf s.toList

/-- an atom, Printer/dbotterprint.c:2116-2206; EMPTYSTRING is "$emptystr" -/
def atomText (tf neg : Bool) (bd : List Lst) (a : Atm) : List Char :=
  if a.ty = 3 ∨ a.ty = 4 then a.s1.toList
  else if a.s1 = "$emptystr" then ['"', '"']
  else if begins "$true" a.s1 then (if neg then "false" else "true").toList
  else if begins "$false" a.s1 then (if neg then "true" else "false").toList
  else if tf && a.s2.isNone && varLike a.s1 && !bound bd a.s1 then '"' :: '?' :: ':' :: (a.s1.toList ++ ['"'])
  else dquoted neg (a.s2 == some "#") a.s1

/-- texts with commas between -/
def commas : List (List Char) → List Char
  | [] => []
  | [x] => x
  | x :: y :: r => x ++ ',' :: commas (y :: r)

/-- the text of an argument; wg_nth gives NULL if there is none, which is printed as an empty list (2112-2115) -/
def pick (l : List (List Char)) (n : Nat) : List Char := l.getD n ['[', ']']

/-- a list with an ordinary head, Printer/dbotterprint.c:2306-2351 -/
def plainText (hd : List Char) (args : List (List Char)) : List Char := '[' :: (commas (hd :: args) ++ [']'])

/-- an infix connective or equality, Printer/dbotterprint.c:2233-2243, 2262-2277 -/
def infixText (w : String) (args : List (List Char)) : List Char :=
  '[' :: (pick args 0 ++ ", \"".toList ++ w.toList ++ "\", ".toList ++ pick args 1 ++ [']'])

mutual
/-- wg_print_subfrm_json, Printer/dbotterprint.c:2073-2358; `tf` for termflag -/
def sub (tf neg : Bool) (bd : List Lst) (t : Lst) : List Char := match t with
  | .atom a => atomText tf neg bd a
  | .list [] => ['[', ']']
  | .list (op :: args) =>
    if !tf && isEq op then infixText "=" (subL true false bd args)
    else if !tf && (isConnective op || isLog "@" op) then
      if isLog "not" op then
        if args.length = 1 ∧ (args.head?.elim false listIsTerm) then pick (subL false true bd args) 0
        else "[\"~\", ".toList ++ pick (subL false false bd args) 0 ++ [']']
      else if isLog "or" op then infixText "|" (subL false false bd args)
      else if isLog "and" op then infixText "&" (subL false false bd args)
      else if isLog "imp" op then infixText "=>" (subL false false bd args)
      else if isLog "eqv" op then infixText "<=>" (subL false false bd args)
      else if isLog "@" op then infixText "@" (subL false false bd args)
      else
        let (vs, bd') := subVs bd args
        '[' :: ((if isLog "all" op then "\"forall\"" else "\"exists\"").toList ++ ", [".toList ++ commas vs ++ "], ".toList ++
          pick (subL false false bd' args) 1 ++ [']'])
    else plainText (sub true neg bd op) (subL true false bd args)
termination_by structural t
/-- the arguments -/
def subL (tf neg : Bool) (bd : List Lst) (l : List Lst) : List (List Char) := match l with
  | [] => []
  | x :: xs => sub tf neg bd x :: subL tf neg bd xs
termination_by structural l
/-- the variables of a quantifier and the list of bound variables with them, Printer/dbotterprint.c:2284-2295 -/
def subVs (bd : List Lst) (l : List Lst) : List (List Char) × List Lst := match l with
  | .list vs :: _ => subV bd vs
  | _ => ([], bd)
termination_by structural l
/-- the loop over the variables: a variable is bound before it is printed -/
def subV (bd : List Lst) (l : List Lst) : List (List Char) × List Lst := match l with
  | [] => ([], bd)
  | v :: vs => let (r, bd') := subV (v :: bd) vs; (sub true false (v :: bd) v :: r, bd')
termination_by structural l
end

/-! ### Lists -/

/-- the string of the head of a list -/
def headStr : Lst → Option String
  | .list (.atom a :: _) => some a.s1
  | _ => none

/-- `$list(x1,$list(x2,...$nil))`, Parser/dbparse.c:801-807 -/
def cells : List Lst → Lst
  | [] => .atom ⟨7, "$nil", none⟩
  | x :: xs => .list [.atom ⟨7, "$list", none⟩, x, cells xs]

mutual
/-- wg_expand_frm_for_print, Parser/dbparse.c:741-771: a list term that is an element of the list is expanded; an
element with a symbol as its head is not gone into -/
def expand : Lst → Lst
  | .atom a => .atom a
  | .list l => .list (expandL l)
/-- the loop -/
def expandL : List Lst → List Lst
  | [] => []
  | x :: xs => expandE x :: expandL xs
/-- an element -/
def expandE : Lst → Lst
  | .atom a => .atom a
  | .list (.atom a :: r) => if a.s1 = "$$lst" then expandR r else .list (.atom a :: r)
  | .list l => .list (expandL l)
/-- what follows `$$lst`, Parser/dbparse.c:759-763, 788-795 -/
def expandR : List Lst → Lst
  | [] => .atom ⟨7, "$nil", none⟩
  | x :: _ => expandA x
/-- wg_expand_frm_for_print_aux, Parser/dbparse.c:773-810 -/
def expandA : Lst → Lst
  | .atom a => .atom a
  | .list [] => .atom ⟨7, "$nil", none⟩
  | .list (.atom a :: r) => if a.s1 = "$$lst" then expandR r else cells (.atom a :: expandL r)
  | .list (x :: r) => cells (expandE x :: expandL r)
end

/-! ### The file -/

/-- a formula of the input, fof or cnf: keyword, name, role, formula -/
structure Item where
  kw : String
  name : String
  role : String
  frm : Lst

/-- wg_expand_frm_for_print for an item (488, 555): it goes through the four elements -/
def Item.expanded (i : Item) : Lst := expandE i.frm

/-- what stands before the formula, Parser/dbparse.c:480-487, 546-554 -/
def Item.before (i : Item) : List Char :=
  "{\"@name\":".toList ++ (if '"' ∈ i.name.toList then dquoted false false i.name else '"' :: (i.name.toList ++ ['"'])) ++
    ",\"@role\":\"".toList ++ i.role.toList ++ "\",\"@logic\":".toList

/-- wg_print_frm_json, Printer/dbotterprint.c:2063-2069 -/
def frmText (f : Lst) : List Char := sub false false [] f

/-- Is the last thing written with snprintf, which writes a final zero byte, or with wg_print_dquoted, which does not? Only
a formula that is a symbol ends with wg_print_dquoted. -/
def terminated : Lst → Bool
  | .atom a => a.ty = 3 || a.ty = 4 || a.s1 = "$emptystr" || begins "$true" a.s1 || begins "$false" a.s1
  | .list _ => true

/-- the buffer after a text was written to its beginning: what was there before is still behind it -/
def written (buf t : List Char) (z : Bool) : List Char := if z then t ++ '\x00' :: buf.drop (t.length + 1) else t ++ buf.drop t.length

/-- what printf("%s",...) shows of the buffer -/
def shown (buf : List Char) : List Char := buf.takeWhile fun c => c != '\x00'

/-- the printing of an item: what is shown, and the buffer then; `last` for "there is no next one" (491-495, 558-562) -/
def Item.print (buf : List Char) (i : Item) (last : Bool) : List Char × List Char :=
  let b := written buf (i.before ++ frmText i.expanded) (terminated i.expanded)
  (shown b ++ (if last then "}\n" else "},\n").toList, b)

/-- the input: formulas, and files included -/
inductive Entry where
  | item (i : Item)
  | incl (es : List Item)

/-- the name of an item of an included file, Parser/dbparse.c:430-435, 503-508; IMPORTED_NAME_PREFIX is "$inc_" -/
def Item.imported (i : Item) : Item := { i with name := "$inc_" ++ String.ofList (i.name.toList.take 900) }

/-- the loop over the items of an included file, which ends with a comma, Parser/dbparse.c:377-653 -/
def printIncl (buf : List Char) : List Item → List Char × List Char
  | [] => (",\n".toList, buf)
  | i :: is => let (t, b) := i.imported.print buf is.isEmpty; let (u, b) := printIncl b is; (t ++ u, b)

/-- the loop over the input, Parser/dbparse.c:377-648 -/
def printLoop (buf : List Char) : List Entry → List Char × List Char
  | [] => ([], buf)
  | .item i :: es => let (t, b) := i.print buf es.isEmpty; let (u, b) := printLoop b es; (t ++ u, b)
  | .incl is :: es => let (t, b) := printIncl buf is; let (u, b) := printLoop b es; (t ++ u, b)

/-- the whole output, Parser/dbparse.c:375-377, 649-652; the buffer is not cleared at the start (sys_realloc from NULL) -/
def printFile (buf : List Char) (es : List Entry) : List Char := "[\n".toList ++ (printLoop buf es).1 ++ "]\n".toList

/-! ### Reading the text -/

/-- value of decimal digits -/
def decVal (l : List Char) : Nat := l.foldl (fun n c => 10 * n + (c.toNat - 48)) 0

/-- is it the text that "%ld" gives for the number? (only numbers that are not negative) -/
def intText (l : List Char) : Bool :=
  l ≠ [] && l.all (fun c => decide (48 ≤ c.toNat ∧ c.toNat ≤ 57)) && (l.head? != some '0' || l.length == 1) && decide (decVal l < 2 ^ 63)

mutual
/-- what the JSON parser makes, Parser/jsparse.c:405-582: strings are uris (484-497), true and false anonymous
constants (425-455), an integer is written again with "%ld" (457-468, Db/dbmpool.c:692-719), an empty array is
"$nil" (526-528).  Other numbers and objects are left out. -/
def jv : J → Option Jv
  | .num r => if intText r then some (.atom ⟨3, String.ofList r⟩) else none
  | .str s => some (.atom (uri (String.ofList s)))
  | .tru => some (.atom (anon "$true"))
  | .fls => some (.atom (anon "$false"))
  | .null => some .null
  | .arr [] => some (.atom (uri "$nil"))
  | .arr (x :: xs) => (jv x).bind fun x => (jvL xs).map fun xs => .list (x :: xs)
  | .obj _ => none
/-- the elements of an array -/
def jvL : List J → Option (List Jv)
  | [] => some []
  | x :: xs => (jv x).bind fun x => (jvL xs).map (x :: ·)
end

/-- the roles the reader of JSON knows, Parser/jsparse.c:1139-1145 -/
def knownRoles : List String := ["axiom", "assumption", "hypothesis", "conjecture", "negated_conjecture", "question"]

/-! ### The size of the buffer -/

/-- wg_str_guarantee_space, Printer/dbotterprint.c:2519-2541: the size the caller believes in, the size needed; the new
size, or none if it would be more than 10^9.  The doubling ends, because `len` is not 0. -/
def grow (len need : Nat) : Nat → Option Nat
  | 0 => none
  | k + 1 => if 1000000000 < 2 * len then none else if need < 2 * len then some (2 * len) else grow (2 * len) need k

/-- the buffer after the call: the size believed in, and the real one; without need nothing is done, otherwise sys_realloc
sets the real size -/
def guarantee (len real need : Nat) : Option (Nat × Nat) :=
  if need ≤ len then some (len, real) else (grow len need 40).map fun n => (n, n)

end Gkc.Conv
