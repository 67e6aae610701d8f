import Verif.Scan
/-
The parser of TPTP and Otter syntax: Builtparser/dbotter.tab.c, which bison made from Parser/dbotter.y.  The tables are copied from the
C text.

Simplified: memory does not run out.  The grammar has no rule for the error token, so an error ends the parse (1982-2070).
-/
namespace Gkc.Ps
open Gkc.Conv (Lst Atm)

/-- yypact, Builtparser/dbotter.tab.c:584 -/
def yypact : List Int :=
  [94, -33, -33, -33, -33, -33, -33, -33, -33, -33, -33, -33, -32, -23, -33, -26, -25, 232, 232, 232, 163, 15, -33,
   129, -33, -19, -7, 251, -33, -33, 2, 232, 232, 232, 232, 4, -33, 4, -33, -9, 251, -10, -33, 53, -2, 262, -33, -33,
   -33, 232, 232, 232, 232, 232, 232, 232, 232, 232, 232, 232, 232, 232, 232, 198, 3, 7, 10, 11, 232, -33, -33, 232,
   -33, -7, -7, 4, -7, -7, -33, -33, -33, -33, -33, -33, -33, -33, -33, -33, -33, 16, -33, -33, 12, 30, -33, -33, -33,
   232, 232, -33, -33]

/-- yydefact, Builtparser/dbotter.tab.c:602 -/
def yydefact : List Int :=
  [30, 46, 47, 48, 49, 50, 55, 52, 53, 54, 56, 51, 0, 0, 57, 0, 0, 30, 30, 30, 30, 0, 5, 30, 4, 0, 29, 8, 26, 9, 10,
   30, 30, 30, 30, 21, 42, 22, 43, 29, 44, 0, 25, 29, 0, 0, 1, 6, 7, 30, 30, 30, 30, 30, 30, 30, 30, 30, 30, 30, 30,
   30, 30, 30, 0, 0, 0, 0, 30, 13, 23, 30, 24, 16, 17, 19, 18, 20, 35, 38, 39, 36, 34, 32, 37, 31, 33, 45, 11, 0, 15,
   14, 0, 0, 33, 28, 12, 30, 30, 40, 41]

/-- yypgoto, Builtparser/dbotter.tab.c:618 -/
def yypgoto : List Int :=
  [-33, -33, 29, -33, -33, -33, 14, -28, 0, -33, -18, -33]

/-- yydefgoto, Builtparser/dbotter.tab.c:625 -/
def yydefgoto : List Int :=
  [-1, 21, 22, 23, 24, 25, 26, 44, 45, 28, 29, 30]

/-- yytable, Builtparser/dbotter.tab.c:634 -/
def yytable : List Int :=
  [27, 41, 31, 64, 65, 66, 67, 49, 50, 49, 50, 32, 33, 34, 48, 46, 0, 36, 38, 40, 49, 50, 51, 27, 51, 70, 69, 52, 53,
   52, 53, 35, 37, 39, 43, 89, 63, 72, 90, 0, 52, 53, 91, 95, 87, 43, 43, 43, 43, 92, 93, 96, 47, 97, 78, 79, 80, 81,
   82, 83, 84, 85, 86, 73, 74, 75, 76, 77, 94, 49, 50, 98, 0, 0, 0, 0, 0, 43, 0, 0, 0, 0, 0, 0, 51, 43, 0, 0, -27, 52,
   53, 0, -27, 71, -2, 0, 0, 99, 100, 1, 2, 3, 4, 5, 6, 7, 8, 9, 10, 11, 12, 13, 0, 0, 0, 0, 0, 0, 0, 0, 14, 0, 0, 15,
   16, 17, 18, 0, 19, -3, 0, 0, 20, 0, 1, 2, 3, 4, 5, 6, 7, 8, 9, 10, 11, 12, 13, 0, 0, 0, 0, 0, 0, 0, 0, 14, 0, 0,
   15, 16, 17, 18, 0, 19, 0, 0, 0, 20, 1, 2, 3, 4, 5, 6, 7, 8, 9, 10, 11, 12, 13, 0, 0, 0, 0, 0, 0, 0, 0, 14, 0, 0,
   15, 16, 17, 18, 0, 19, 0, 0, 0, 20, 42, 1, 2, 3, 4, 5, 6, 7, 8, 9, 10, 11, 12, 13, 0, 0, 0, 0, 0, 0, 0, 0, 14, 0,
   0, 15, 16, 17, 18, 0, 19, 88, 0, 0, 20, 1, 2, 3, 4, 5, 6, 7, 8, 9, 10, 11, 12, 13, 0, 0, 0, 0, 0, 0, 0, 0, 14, 0,
   0, 15, 16, 17, 18, 0, 19, 0, 0, 54, 20, 55, 56, 57, 58, 59, 60, 0, 61, 62, 54, 0, 55, 56, 57, 58, 59, 60, 0, 61,
   68]

/-- yycheck, Builtparser/dbotter.tab.c:668 -/
def yycheck : List Int :=
  [0, 19, 34, 31, 32, 33, 34, 16, 17, 16, 17, 34, 38, 38, 33, 0, -1, 17, 18, 19, 16, 17, 31, 23, 31, 35, 35, 36, 37,
   36, 37, 17, 18, 19, 20, 63, 34, 39, 35, -1, 36, 37, 35, 71, 62, 31, 32, 33, 34, 39, 39, 35, 23, 41, 54, 55, 56, 57,
   58, 59, 60, 61, 62, 49, 50, 51, 52, 53, 68, 16, 17, 41, -1, -1, -1, -1, -1, 63, -1, -1, -1, -1, -1, -1, 31, 71, -1,
   -1, 35, 36, 37, -1, 39, 40, 0, -1, -1, 97, 98, 5, 6, 7, 8, 9, 10, 11, 12, 13, 14, 15, 16, 17, -1, -1, -1, -1, -1,
   -1, -1, -1, 26, -1, -1, 29, 30, 31, 32, -1, 34, 0, -1, -1, 38, -1, 5, 6, 7, 8, 9, 10, 11, 12, 13, 14, 15, 16, 17,
   -1, -1, -1, -1, -1, -1, -1, -1, 26, -1, -1, 29, 30, 31, 32, -1, 34, -1, -1, -1, 38, 5, 6, 7, 8, 9, 10, 11, 12, 13,
   14, 15, 16, 17, -1, -1, -1, -1, -1, -1, -1, -1, 26, -1, -1, 29, 30, 31, 32, -1, 34, -1, -1, -1, 38, 39, 5, 6, 7, 8,
   9, 10, 11, 12, 13, 14, 15, 16, 17, -1, -1, -1, -1, -1, -1, -1, -1, 26, -1, -1, 29, 30, 31, 32, -1, 34, 35, -1, -1,
   38, 5, 6, 7, 8, 9, 10, 11, 12, 13, 14, 15, 16, 17, -1, -1, -1, -1, -1, -1, -1, -1, 26, -1, -1, 29, 30, 31, 32, -1,
   34, -1, -1, 18, 38, 20, 21, 22, 23, 24, 25, -1, 27, 28, 18, -1, 20, 21, 22, 23, 24, 25, -1, 27, 28]

/-- yyr1, Builtparser/dbotter.tab.c:720 -/
def yyr1 : List Int :=
  [0, 42, 43, 43, 44, 45, 45, 46, 47, 47, 48, 48, 48, 48, 48, 48, 48, 48, 48, 48, 48, 48, 48, 48, 48, 48, 48, 49, 49,
   50, 51, 51, 51, 51, 51, 51, 51, 51, 51, 51, 51, 51, 51, 51, 52, 52, 53, 53, 53, 53, 53, 53, 53, 53, 53, 53, 53, 53]

/-- yyr2, Builtparser/dbotter.tab.c:731 -/
def yyr2 : List Int :=
  [0, 2, 0, 1, 1, 1, 2, 2, 1, 1, 1, 3, 4, 3, 4, 4, 3, 3, 3, 3, 3, 2, 2, 3, 3, 2, 1, 1, 3, 1, 0, 3, 3, 3, 3, 3, 3, 3,
   3, 3, 6, 6, 2, 2, 1, 3, 1, 1, 1, 1, 1, 1, 1, 1, 1, 1, 1, 1]

/-- an entry of a table; the code never reads outside -/
def ent (t : List Int) (i : Nat) : Int := (t[i]?).getD 0

/-- what to do in a state with a token -/
inductive Act where
  | shift (s : Nat)
  | reduce (r : Nat)
  | error
deriving DecidableEq, Repr

/-- yydefault, Builtparser/dbotter.tab.c:1402-1409 -/
def dflt (s : Nat) : Act := if ent yydefact s = 0 then .error else .reduce (ent yydefact s).toNat

/-- yybackup, Builtparser/dbotter.tab.c:1343-1387; YYPACT_NINF is -33, YYLAST 290 -/
def action (s tok : Nat) : Act :=
  let n := ent yypact s
  if n = -33 then dflt s
  else
    let n := n + tok
    if n < 0 ∨ 290 < n ∨ ent yycheck n.toNat ≠ tok then dflt s
    else if ent yytable n.toNat ≤ 0 then .reduce (-ent yytable n.toNat).toNat
    else .shift (ent yytable n.toNat).toNat

/-- the state after a reduction to the symbol of rule `r`, Builtparser/dbotter.tab.c:1928-1934; YYNTOKENS is 42 -/
def goto' (r s : Nat) : Nat :=
  let lhs := (ent yyr1 r - 42).toNat
  let i := ent yypgoto lhs + s
  if 0 ≤ i ∧ i ≤ 290 ∧ ent yycheck i.toNat = s then (ent yytable i.toNat).toNat else (ent yydefgoto lhs).toNat

/-- a value of the value stack: the text of a token, a list or atom of the memory pool, or what happens to be in memory -/
inductive V where
  | txt (s : String)
  | tree (l : Lst)
  | junk

/-- MKWGPAIR, Parser/dbgenparse.h:44; `none`: a pointer that does not point to a list is made part of one -/
def pair : V → V → Option V
  | .tree a, .tree (.list l) => some (.tree (.list (a :: l)))
  | _, _ => none

/-- MKWGNIL, Parser/dbgenparse.h:57 -/
def nil' : V := .tree (.list [])

/-- MKWGCONST of a word, Parser/dbgenparse.h:55; WG_ANONCONSTTYPE is 13 -/
def cst (s : String) : V := .tree (.atom ⟨13, s, none⟩)

/-- wg_mkatom of the text of a token, Parser/dbgenparse.h:46-56 -/
def mk (ty : Nat) (s2 : Option String) : V → Option V
  | .txt s => some (.tree (.atom ⟨ty, s, s2⟩))
  | _ => none

/-- `[op, a, b]` -/
def op2 (op : String) (a b : V) : Option V := do pair (cst op) (← pair a (← pair b nil'))

/-- `[op, a]` -/
def op1 (op : String) (a : V) : Option V := do pair (cst op) (← pair a nil')

/-- the actions of the rules, Builtparser/dbotter.tab.c:1441-1899.  `above` is the value above the top of the stack, which is the value of
a rule with an empty right side (1420-1428).  Type numbers: Db/dbdata.h:60-73. -/
def rule (r : Nat) (above : V) (vs : List V) : Option V :=
  match r, vs with
  | 3, [a] => some a
  | 4, [a] => some a
  | 5, [a] => pair a nil'
  | 6, [l, a] => pair a l
  | 7, [a, _] => some a
  | 8, [a] => some a
  | 9, [a] => some a
  | 10, [a] => some a
  | 11, [p, _, _] => pair p nil'
  | 12, [p, _, l, _] => pair p l
  | 13, [_, a, _] => some a
  | 14, [_, _, l, _] => pair (cst "=") l
  | 15, [_, _, l, _] => do op1 "not" (← pair (cst "=") l)
  | 16, [a, _, b] => do op1 "not" (← op2 "=" a b)
  | 17, [a, _, b] => op2 "=" a b
  | 18, [a, _, b] => op2 "+" a b
  | 19, [a, _, b] => op2 "-" a b
  | 20, [a, _, b] => op2 "*" a b
  | 21, [_, a] => op1 "not" a
  | 22, [_, a] => op1 "not" a
  | 23, [_, a, _] => some a
  | 24, [_, l, _] => op1 "$$lst" l
  | 25, [_, _] => pair (cst "$$lst") nil'
  | 26, [a] => some a
  | 27, [a] => pair a nil'
  | 28, [a, _, l] => pair a l
  | 29, [a] => some a
  | 31, [a, _, b] => op2 "and" a b
  | 32, [a, _, b] => do op1 "not" (← op2 "and" a b)
  | 33, [a, _, b] => op2 "or" a b
  | 34, [a, _, b] => do op1 "not" (← op2 "or" a b)
  | 35, [a, _, b] => op2 "imp" a b
  | 36, [a, _, b] => op2 "imp" b a
  | 37, [a, _, b] => op2 "@" b a
  | 38, [a, _, b] => op2 "eqv" a b
  | 39, [a, _, b] => do op1 "not" (← op2 "eqv" a b)
  | 40, [_, _, l, _, _, a] => op2 "exists" l a
  | 41, [_, _, l, _, _, a] => op2 "all" l a
  | 42, [_, a] => op1 "not" a
  | 43, [_, a] => op1 "not" a
  | 44, [a] => pair a nil'
  | 45, [a, _, l] => pair a l
  | 46, [a] => mk 3 none a
  | 47, [a] => mk 4 none a
  | 48, [a] => mk 11 none a
  | 49, [a] => mk 12 none a
  | 50, [a] => mk 5 none a
  | 51, [a] => mk 14 none a
  | 52, [a] => mk 7 none a
  | 53, [a] => mk 7 (some "c") a
  | 54, [a] => mk 7 (some "#") a
  | 55, [a] => mk 13 none a
  | 56, [a] => mk 13 none a
  | 57, [a] => mk 13 none a
  | _, [] => some above
  | _, a :: _ => some a

/-- the parser: the stacks with the top first, the values above the top of the value stack (nearest first), the size of the stacks
(yystacksize), the tokens that are not shifted yet, and parm->result -/
structure Cfg where
  stk : List (Nat × V)
  above : List V
  size : Nat
  toks : List Tok
  result : Option V

/-- how a parse ends: accepted with parm->result (NULL is `none`), a syntax error, no room, or a value that is no list and no atom is used
as one -/
inductive Outcome where
  | accept (r : Option V)
  | error
  | exhausted
  | undef

/-- the next token; 0 is the end -/
def la : List Tok → Nat
  | [] => 0
  | t :: _ => t.kind

/-- yynewstate and yysetstate, Builtparser/dbotter.tab.c:1253-1333: a state and a value are pushed; the stacks grow up to
YYMAXDEPTH = 10000.  What is above the top is not copied to larger stacks. -/
def push (c : Cfg) (s : Nat) (v : V) : Cfg ⊕ Outcome :=
  let stk := (s, v) :: c.stk
  if c.size ≤ stk.length then
    if 10000 ≤ c.size then .inr .exhausted
    else
      let size := min (2 * c.size) 10000
      if size ≤ stk.length then .inr .error
      else .inl { c with stk, above := [], size }
  else .inl { c with stk, above := c.above.tail }

/-- a round of the loop, Builtparser/dbotter.tab.c:1329-1937; YYFINAL is 46 -/
def step (c : Cfg) : Cfg ⊕ Outcome :=
  match c.stk with
  | [] => .inr .undef
  | (s, _) :: _ =>
    if s = 46 then .inr (.accept c.result)
    else match action s (la c.toks) with
    | .error => .inr .error
    | .shift n => push { c with toks := c.toks.tail } n (.txt (c.toks.head?.elim "" Tok.text))
    | .reduce r =>
      let len := (ent yyr2 r).toNat
      let vs := ((c.stk.take len).map Prod.snd).reverse
      match rule r (c.above.head?.getD .junk) vs, c.stk.drop len with
      | some v, (s0, v0) :: S =>
        push { c with
          stk := (s0, v0) :: S
          above := vs ++ c.above
          result := if r = 3 then some v else c.result } (goto' r s0) v
      | _, _ => .inr .undef

/-- the loop -/
def run : Nat → Cfg → Option Outcome
  | 0, _ => none
  | n + 1, c => match step c with
    | .inl c' => run n c'
    | .inr f => some f

/-- the beginning, Builtparser/dbotter.tab.c:1243-1252; YYINITDEPTH is 200 -/
def init (ts : List Tok) : Cfg := ⟨[(0, .junk)], [], 200, ts, none⟩

/-- wg_yyotterparse with the scanner, with at most `n` rounds -/
def parse (n : Nat) (inp : List Char) : Option Outcome :=
  match lex inp with
  | none => some .undef
  | some ts => run n (init ts)

end Gkc.Ps
