import Verif.Clausal
/-
Formulas in JSON-LD-LOGIC: from JSON lists to the lists the clausifier works on
(Parser/jsparse.c:1074-1566, 2069-2362, 2410-2821; the language: Doc/json_ld_logic.md).

Simplified: JSON objects, `@context` and included files are left out; the program works in place, here
new lists are made; memory does not run out.  A message (wr_show_jsparse_error) ends everything, and so
does a result NULL, where the code sometimes goes on and the formula is lost silently.  `ub` stands for
strcmp with NULL, which is what wg_atomstr1 gives for an empty string (Db/dbmpool.c:778-782).
-/
namespace Gkc.Js
open Gkc.Clausify (Nm FT Frm uri)

/-- What the JSON parser makes (Parser/jsparse.c:405-582): null is a special atom, told by its address
(238, 405-423), strings are atoms of type uri (484-497), numbers are atoms with their text (457-482), an empty
array is the string "$nil" (526-528), true and false are the anonymous constants $true and $false (425-455). -/
inductive Jv where
  | null
  | atom (n : Nm)
  | list (l : List Jv)

/-- an anonymous constant: type WG_ANONCONSTTYPE, Db/dbmpool.c:929-934 -/
def anon (s : String) : Nm := ⟨13, s⟩

/-- no result: a message, undefined behaviour, or the bound on the depth of calls was too small -/
inductive Fault where
  | err
  | ub
  | fuel
  deriving DecidableEq

/-- a result or no result -/
abbrev Out (α : Type) := Except Fault α

/-- freevars, boundvars, nullvars, nullvarsnr of parse_parm -/
structure St where
  free : List String
  bound : List (List String)
  nulls : List String
  nullnr : Nat

/-- strcmp with wg_atomstr1 of a value, if that is an atom -/
def jstr : Jv → Out (Option String)
  | .null => .ok (some "$gk_null$")
  | .atom n => if n.str = "" then .error .ub else .ok (some n.str)
  | .list _ => .ok none

/-- the strings of wr_json_is_connective, Parser/jsparse.c:2482-2516 -/
def connectives : List String :=
  ["not", "~", "-", "and", "or", "&", "|", "if", "forall", "exists", "<=>", "=>", "<=", "<~>", "~|", "~&", "@"]

/-- wr_json_is_connective, Parser/jsparse.c:2482-2516 -/
def isConn : Jv → Option Nm
  | .atom n => if (n.ty = 7 ∨ n.ty = 13) ∧ n.str ∈ connectives then some n else none
  | _ => none

/-- wr_json_equal_atoms, Parser/jsparse.c:2603-2614 -/
def equalAtoms (a b : Nm) : Bool := a.ty == 7 && b.ty == 7 && a.str == b.str

/-- the same for an element and the connective, Parser/jsparse.c:2750, with an empty string not sorted out before -/
def isSep (c : Nm) : Jv → Out Bool
  | .atom n => if n.ty = 7 ∧ c.ty = 7 ∧ n.str = "" then .error .ub else .ok (equalAtoms n c)
  | _ => .ok false

/-- wr_json_list_logconn, Parser/jsparse.c:2410-2436 -/
def logconn : Option Nm → List Jv → Out (Option Nm)
  | found, [] => .ok found
  | found, x :: xs => match isConn x with
    | none => logconn found xs
    | some c => match found with
      | none => logconn (some c) xs
      | some d => if equalAtoms d c then logconn found xs else .error .err

/-- wr_json_is_eq_op, Parser/jsparse.c:2519-2534, for the second element, if there is a third (1442): the operator and
the third element -/
def eqOp : List Jv → Out (Option (String × Jv))
  | .atom n :: r2 =>
    if n.ty = 7 then
      if n.str = "" then .error .ub
      else match r2 with
        | y :: _ => .ok (if n.str ∈ ["=", "~=", "-=", "!="] then some (n.str, y) else none)
        | [] => .ok none
    else .ok none
  | _ => .ok none

/-- wr_is_json_freevar, Parser/jsparse.c:2583-2601, for the string -/
def isQ (s : String) : Bool := match s.toList with
  | '?' :: ':' :: _ :: _ => true
  | _ => false

/-- wr_json_is_varlist, Parser/jsparse.c:2441-2462, for an element: its string -/
def varName : Jv → Option String
  | .atom n => if n.ty = 7 then match n.str.toList with
      | [] => none
      | c :: _ => if isQ n.str ∨ 'A' ≤ c ∧ c ≤ 'Z' then some n.str else none
    else none
  | _ => none

/-- the elements of a list of variables -/
def varNames : List Jv → Option (List String)
  | [] => some []
  | x :: xs => (varName x).bind fun s => (varNames xs).map (s :: ·)

/-- wr_json_is_varlist, Parser/jsparse.c:2441-2462 -/
def varlist : Jv → Option (List String)
  | .list (x :: xs) => varNames (x :: xs)
  | _ => none

/-- wr_json_translate_connective, Parser/jsparse.c:2536-2567; for "if" the result is NULL -/
def translate (s : String) : Option Nm :=
  if s = "not" ∨ s = "~" ∨ s = "-" then some (anon "not")
  else if s = "and" ∨ s = "&" ∨ s = "~&" then some (anon "and")
  else if s = "or" ∨ s = "|" ∨ s = "~|" then some (anon "or")
  else if s = "forall" then some (anon "exists")
  else if s = "exists" then some (anon "all")
  else if s = "<=>" ∨ s = "<~>" then some (anon "eqv")
  else if s = "=>" ∨ s = "<=" then some (anon "imp")
  else if s = "@" then some (anon "@")
  else none

/-- wr_json_negtype_connective, Parser/jsparse.c:2569-2581 -/
def negType (s : String) : Bool := s == "<~>" || s == "~|" || s == "~&"

/-- wr_json_really_equal_atoms, Parser/jsparse.c:2616-2636 -/
def reallyEqual (a : Nm) : Jv → Out Bool
  | .atom n => if n.str = "" then .error .ub else .ok (a.str == n.str)
  | .null => .ok (a.str == "$gk_null$")
  | .list _ => .ok false

/-- wg_list_memberuri_in_sublist, Db/dbmpool.c:483-500 -/
def inBound (st : St) (s : String) : Bool := st.bound.any fun l => l.any fun t => t == s

/-- wr_json_make_nullvar, Parser/jsparse.c:2790-2821 -/
def nullVar (st : St) : Out (String × St) :=
  match (List.range' (st.nullnr + 1) (10000 - st.nullnr)).find?
      (fun n => !(st.free.any fun t => t == "Nvar" ++ toString n) && !inBound st ("Nvar" ++ toString n)) with
  | none => .error .err
  | some n => .ok ("Nvar" ++ toString n, { st with nulls := ("Nvar" ++ toString n) :: st.nulls, nullnr := n })

/-- the case of an atom in wr_process_json_term, Parser/jsparse.c:2136-2203, without a context -/
def termAtom (st : St) (n : Nm) (pos : Nat) : Out (Jv × St) :=
  if n.str = "" then .ok (.atom (anon "$emptystr"), st)
  else if n.ty ≠ 7 ∧ n.ty ≠ 13 then if pos = 0 then .error .err else .ok (.atom n, st)
  else if n.ty = 7 ∧ isQ n.str then
    .ok (.atom n, if n.str ∈ st.free ∨ inBound st n.str then st else { st with free := n.str :: st.free })
  else if inBound st n.str then .ok (.atom n, st)
  else if n.str = "@type" then .ok (.atom (uri "http://www.w3.org/1999/02/22-rdf-syntax-ns#type"), st)
  else if n.ty = 7 then
    match n.str.toList with
    | '?' :: ':' :: _ => .ok (.atom n, st)
    | _ => .ok (.atom (anon n.str), st)
  else .ok (.atom n, st)

/-- is the head of a list a negated name? Parser/jsparse.c:1405-1406, 2310-2311 -/
def negHead (s : String) : Bool := match s.toList with
  | '-' :: _ => true
  | '~' :: _ => true
  | _ => false

/-- the test for a double negation, Parser/jsparse.c:1407 -/
def doubleNeg (s : String) : Bool := match s.toList with
  | '~' :: _ => true
  | _ :: '-' :: _ => true
  | _ => false

/-- the string after its first character -/
def rest (s : String) : String := String.ofList (s.toList.drop 1)

/-- the string of the second element of a list, when strcmp is used without a test, Parser/jsparse.c:2215-2217 -/
def second : List Jv → Out (Option String)
  | [] => .ok none
  | y :: _ => jstr y

/-- the second element, if it is one of the arithmetic operators, Parser/jsparse.c:2245-2250 -/
def arithOp : List Jv → Option Nm
  | .atom n :: _ => if n.str ∈ ["+", "*", "-", "/"] then some n else none
  | _ => none

mutual
/-- wr_process_json_term, Parser/jsparse.c:2069-2362; `lvl` for atomlevel.  Around an atom with nulls an existential
quantifier is put (2358-2360). -/
def term : Nat → St → Jv → Bool → Nat → Out (Jv × St)
  | 0, _, _, _, _ => .error .fuel
  | k + 1, st, x, lvl, pos =>
    (termBody k (if lvl then { st with nulls := [], nullnr := 0 } else st) x lvl pos).bind fun (r, st) =>
      if lvl ∧ st.nulls ≠ [] then
        .ok (.list [.atom (anon "exists"), .list (st.nulls.map fun s => .atom (uri s)), r], st)
      else .ok (r, st)
/-- the cases of wr_process_json_term, Parser/jsparse.c:2119-2357 -/
def termBody : Nat → St → Jv → Bool → Nat → Out (Jv × St)
  | 0, _, _, _, _ => .error .fuel
  | _ + 1, st, .null, lvl, pos =>
    if lvl ∨ pos = 0 then .error .err else (nullVar st).map fun (s, st) => (.atom (uri s), st)
  | _ + 1, st, .atom n, _, pos => termAtom st n pos
  | _ + 1, _, .list [], _, _ => .error .err
  | k + 1, st, .list (head :: r1), true, _ =>
    (second r1).bind fun s2 =>
    if s2 = some "=" ∨ s2 = some "!=" then match r1 with
      | [_, b] => termEq k st head b (s2 == some "=")
      | _ => .error .err
    else (jstr head).bind fun hs =>
    if hs = some "=" ∨ hs = some "!=" ∨ hs = some "-=" ∨ hs = some "~=" then match r1 with
      | [a, b] => termEq k st a b (hs == some "=")
      | _ => .error .err
    else termList k st head r1 true
  | k + 1, st, .list (head :: r1), false, _ => match arithOp r1 with
    | some op => match r1 with
      | [_, b] => (term k st head false 1).bind fun (a, st) => (term k st b false 2).bind fun (b, st) =>
          .ok (.list [.atom op, a, b], st)
      | _ => .error .err
    | none => termList k st head r1 false
/-- an equality or its negation, Parser/jsparse.c:2226-2239, 2281-2298 -/
def termEq : Nat → St → Jv → Jv → Bool → Out (Jv × St)
  | 0, _, _, _, _ => .error .fuel
  | k + 1, st, a, b, pos => (term k st a false 1).bind fun (a, st) => (term k st b false 2).bind fun (b, st) =>
    .ok (if pos then .list [.atom (anon "="), a, b] else .list [.atom (anon "not"), .list [.atom (anon "="), a, b]], st)
/-- other lists, Parser/jsparse.c:2300-2356 -/
def termList : Nat → St → Jv → List Jv → Bool → Out (Jv × St)
  | 0, _, _, _, _ => .error .fuel
  | _ + 1, _, .list _, _, _ => .error .err
  | _ + 1, _, .null, _, _ => .error .err
  | k + 1, st, .atom n, r1, lvl =>
    if n.ty ≠ 7 ∧ n.ty ≠ 13 then .error .err
    else if n.str = "" then .error .ub
    else if lvl ∧ negHead n.str then
      (termL k st (.atom n :: r1) 0).bind fun (l, st) =>
        .ok (.list [.atom (anon "not"), .list (.atom (uri (rest n.str)) :: l.drop 1)], st)
    else if n.str = "exists" ∨ n.str = "all" then match r1 with
      | vs :: y :: r => match varlist vs with
        | none => .error .err
        | some names => (term k { st with bound := names :: st.bound } y true 1).bind fun (y, st') =>
            .ok (.list (.atom n :: vs :: y :: r), { st' with bound := st.bound })
      | _ => .error .err
    else (termL k st (.atom n :: r1) 0).bind fun (l, st) => .ok (.list l, st)
/-- the loop over the elements, Parser/jsparse.c:2313-2318, 2350-2354 -/
def termL : Nat → St → List Jv → Nat → Out (List Jv × St)
  | 0, _, _, _ => .error .fuel
  | _ + 1, st, [], _ => .ok ([], st)
  | k + 1, st, x :: xs, pos => (term k st x false pos).bind fun (x, st) => (termL k st xs (pos + 1)).bind fun (xs, st) =>
    .ok (x :: xs, st)
end

mutual
/-- wr_process_json_formula_aux, Parser/jsparse.c:1352-1566.  An atom: 1397-1421. -/
def aux : Nat → St → Jv → Out (Jv × St)
  | 0, _, _ => .error .fuel
  | _ + 1, _, .null => .error .err
  | k + 1, st, .atom n =>
    if n.ty = 7 ∧ negHead n.str then
      if doubleNeg n.str then .error .err
      else aux k st (.list [.atom (anon "not"), .atom (uri (rest n.str))])
    else term k st (.atom n) true 0
  | _ + 1, _, .list [] => .error .err
  | k + 1, st, .list (head :: r1) =>
    (logconn none (head :: r1)).bind fun conn =>
    (jstr head).bind fun hs =>
    if hs = some "and" ∧ r1.isEmpty then .ok (.atom (anon "$false"), st)
    else if hs = some "or" ∧ r1.isEmpty then .ok (.atom (anon "$true"), st)
    else (eqOp r1).bind fun eq => match eq with
    | some (op, right) => (term k st head false 1).bind fun (a, st) => (term k st right false 2).bind fun (b, st) =>
        .ok (if op = "=" then .list [.atom (uri "="), a, b]
          else .list [.atom (anon "not"), .list [.atom (anon "="), a, b]], st)
    | none => auxList k st conn hs head r1
/-- lists that are not equalities, Parser/jsparse.c:1460-1557 -/
def auxList : Nat → St → Option Nm → Option String → Jv → List Jv → Out (Jv × St)
  | 0, _, _, _, _, _ => .error .fuel
  | k + 1, st, conn, hs, head, r1 =>
    if hs = some "not" ∨ hs = some "-" ∨ hs = some "~" then match r1 with
      | [x] => (aux k st x).bind fun (x, st) => .ok (.list [.atom (anon "not"), x], st)
      | _ => .error .err
    else if hs = some "exists" then auxQuant k st "exists" r1
    else if hs = some "forall" then auxQuant k st "all" r1
    else if hs = some "if" then ifThen k st r1
    else match conn with
      | some c => match translate c.str with
        | none => .error .err
        | some nc => (unflatten k st c nc (!negType c.str) (c.str == "<=") (head :: r1).reverse).bind fun (r, st) =>
          match r with
          | none => .error .err
          | some r => .ok (r, st)
      | none => match head with
        | .list _ => aux k st (.list (.atom (uri "or") :: head :: r1))
        | _ => term k st (.list (head :: r1)) true 0
/-- quantifiers, Parser/jsparse.c:1478-1525 -/
def auxQuant : Nat → St → String → List Jv → Out (Jv × St)
  | 0, _, _, _ => .error .fuel
  | k + 1, st, q, [vs, y] => match varlist vs with
    | none => .error .err
    | some names => (aux k { st with bound := names :: st.bound } y).bind fun (y, st') =>
        .ok (.list [.atom (anon q), vs, y], { st' with bound := st.bound })
  | _ + 1, _, _, _ => .error .err
/-- the loop of wr_json_process_if_then, Parser/jsparse.c:2647-2663: conditions, consequences, was there no "then" -/
def ifLoop : Nat → St → Bool → List Jv → Out ((List Jv × List Jv × Bool) × St)
  | 0, _, _, _ => .error .fuel
  | _ + 1, st, incond, [] => .ok (([], [], incond), st)
  | k + 1, st, incond, x :: xs =>
    (match x with
      | .atom n => if n.ty = 7 then if n.str = "" then .error .ub else .ok (n.str == "then") else .ok false
      | _ => .ok false : Out Bool).bind fun isThen =>
    if isThen then ifLoop k st false xs
    else (aux k st x).bind fun (x, st) => (ifLoop k st incond xs).bind fun ((cs, ds, i), st) =>
      .ok (if incond then (x :: cs, ds, i) else (cs, x :: ds, i), st)
/-- wr_json_process_if_then, Parser/jsparse.c:2638-2700: several conditions are joined by and, several consequences
by or, and are processed once more for that -/
def ifThen : Nat → St → List Jv → Out (Jv × St)
  | 0, _, _ => .error .fuel
  | k + 1, st, xs => (ifLoop k st true xs).bind fun ((cs, ds, incond), st) =>
    if incond ∨ cs.isEmpty ∨ ds.isEmpty then .error .err
    else (joinParts k st "and" cs).bind fun (c, st) => (joinParts k st "or" ds).bind fun (d, st) =>
      .ok (.list [.atom (anon "imp"), c, d], st)
/-- the conditions or the consequences, Parser/jsparse.c:2676-2693 -/
def joinParts : Nat → St → String → List Jv → Out (Jv × St)
  | 0, _, _, _ => .error .fuel
  | _ + 1, st, _, [x] => .ok (x, st)
  | k + 1, st, w, xs => (unflatten k st (anon w) (anon w) true false (.atom (anon w) :: xs)).bind fun (r, st) => match r with
    | none => .error .err
    | some r => .ok (r, st)
/-- wr_json_unflatten_logic, Parser/jsparse.c:2731-2788 -/
def unflatten : Nat → St → Nm → Nm → Bool → Bool → List Jv → Out (Option Jv × St)
  | 0, _, _, _, _, _, _ => .error .fuel
  | _ + 1, st, _, _, _, _, [] => .ok (none, st)
  | k + 1, st, c, nc, ispos, isrev, x :: rst =>
    (isSep c x).bind fun sep =>
    if sep then unflatten k st c nc ispos isrev rst
    else if rst.isEmpty then (aux k st x).bind fun (r, st) => .ok (some r, st)
    else (unflatten k st c nc ispos isrev rst).bind fun (a1, st) =>
      (reallyEqual c x).bind fun same =>
      if same then .ok (a1, st)
      else match a1 with
        | none => (aux k st x).bind fun (r, st) => .ok (some r, st)
        | some a1 => (aux k st x).bind fun (a2, st) =>
          if ispos && isrev then (reallyEqual nc a2).bind fun e =>
            .ok (some (if e then a1 else .list [.atom nc, a2, a1]), st)
          else (reallyEqual nc a1).bind fun e =>
            let r := if e then a2 else .list [.atom nc, a1, a2]
            .ok (some (if ispos then r else .list [.atom (anon "not"), r]), st)
end

/-- the role of a formula: a question, or another one (axiom, assumption, hypothesis, conjecture, negated_conjecture) -/
inductive Role where
  | question
  | other
  deriving DecidableEq

/-- wr_process_json_formula, Parser/jsparse.c:1178-1239, from an empty state (1090-1100): the free variables are
quantified; a question is negated, or made an implication of an answer literal -/
def formula (k : Nat) (role : Role) (x : Jv) : Out Jv :=
  (aux k ⟨[], [], [], 0⟩ x).bind fun (r, st) =>
    let fv := st.free.reverse.map fun s => Jv.atom (uri s)
    .ok (match role with
    | .question =>
      if fv.isEmpty then .list [.atom (anon "not"), r]
      else .list [.atom (anon "all"), .list fv, .list [.atom (anon "imp"), r, .list (.atom (uri "$ans") :: fv)]]
    | .other => if fv.isEmpty then r else .list [.atom (anon "all"), .list fv, r])

/-! ### What the clausifier sees -/

mutual
/-- a list as a term, Parser/dbclausify.c:107-115 -/
def readT : Jv → Option FT
  | .atom n => some (.nm n)
  | .list (.atom f :: as) => (readTL as).map (.app f ·)
  | _ => none
/-- the arguments -/
def readTL : List Jv → Option (List FT)
  | [] => some []
  | x :: xs => (readT x).bind fun x => (readTL xs).map (x :: ·)
end

/-- variables of a quantifier -/
def readVars : List Jv → Option (List Nm)
  | [] => some []
  | .atom n :: xs => (readVars xs).map (n :: ·)
  | _ :: _ => none

mutual
/-- a list as a formula: wg_islogconnective and its companions, Db/dbmpool.c:810-869 -/
def readF : Jv → Option Frm
  | .null => none
  | .atom n => some (.at (.nm n))
  | .list [] => none
  | .list (.null :: _) => none
  | .list [.list l] => (readF (.list l)).map .par
  | .list (.list _ :: _ :: _) => none
  | .list (.atom n :: as) =>
    if n.ty = 13 ∧ n.str = "not" then match as with
      | [x] => (readF x).map .neg
      | _ => none
    else if n.ty = 13 ∧ n.str = "and" then (readFL as).map .and
    else if n.ty = 13 ∧ n.str = "or" then (readFL as).map .or
    else if n.ty = 13 ∧ n.str = "imp" then (readFL as).map .imp
    else if n.ty = 13 ∧ n.str = "eqv" then match as with
      | [x, y] => (readF x).bind fun x => (readF y).map fun y => .eqv x y
      | _ => none
    else if n.ty = 13 ∧ n.str = "all" then match as with
      | [.list vs, x] => (readVars vs).bind fun vs => (readF x).map (.all vs ·)
      | _ => none
    else if n.ty = 13 ∧ n.str = "exists" then match as with
      | [.list vs, x] => (readVars vs).bind fun vs => (readF x).map (.ex vs ·)
      | _ => none
    else (readTL as).map fun as => .at (.app n as)
/-- the arguments of a connective -/
def readFL : List Jv → Option (List Frm)
  | [] => some []
  | x :: xs => (readF x).bind fun x => (readFL xs).map (x :: ·)
end

end Gkc.Js
