import Verif.Convert
/-
The scanner of the parser of TPTP and Otter syntax: Builtparser/dbotter.yy.c, which flex made from Parser/dbotter.l.  The tables are
copied from the C text.

Simplified: the whole text is in the buffer (the refilling of the buffer, 1700-1870, is left out).  A character
that takes several bytes in UTF-8 is one character here: all its bytes are in class 25.  The values of tokens are pointers into the
buffer; the parser copies a text before it asks for the next token (see `prims_copied` in Props/Parse.lean), so they are texts here.
-/
namespace Gkc.Ps

/-- yy_accept, Builtparser/dbotter.yy.c:592 -/
def t_accept : List Nat :=
  [0, 0, 0, 0, 0, 0, 0, 31, 31, 60, 58, 57, 38, 51, 16, 58, 39, 54, 23, 44, 43, 55, 56, 47, 40, 48, 1, 12, 53, 1, 3,
   1, 52, 10, 35, 50, 49, 46, 42, 45, 41, 22, 21, 20, 22, 29, 28, 27, 29, 31, 33, 32, 57, 38, 1, 2, 36, 39, 11, 30, 0,
   12, 5, 0, 4, 37, 35, 8, 9, 19, 17, 18, 26, 24, 25, 31, 32, 32, 34, 36, 13, 12, 0, 6, 7, 37, 12, 0, 0, 12, 0, 0, 0,
   0, 0, 0, 15, 0, 14, 0]

/-- yy_ec, Builtparser/dbotter.yy.c:607 -/
def t_ec : List Nat :=
  [0, 1, 1, 1, 1, 1, 1, 1, 1, 2, 3, 1, 1, 1, 1, 1, 1, 1, 1, 1, 1, 1, 1, 1, 1, 1, 1, 1, 1, 1, 1, 1, 2, 4, 5, 1, 6, 7,
   8, 9, 10, 11, 12, 13, 14, 15, 16, 17, 18, 18, 18, 18, 18, 18, 18, 18, 18, 18, 19, 1, 20, 21, 22, 23, 24, 25, 25,
   25, 25, 25, 25, 25, 25, 25, 25, 25, 25, 25, 25, 25, 25, 25, 25, 25, 25, 25, 25, 25, 25, 25, 25, 26, 27, 28, 1, 29,
   1, 25, 25, 25, 25, 25, 25, 25, 25, 25, 25, 25, 25, 25, 30, 25, 25, 25, 25, 25, 31, 25, 25, 25, 25, 25, 25, 32, 33,
   34, 35, 1, 25, 25, 25, 25, 25, 25, 25, 25, 25, 25, 25, 25, 25, 25, 25, 25, 25, 25, 25, 25, 25, 25, 25, 25, 25, 25,
   25, 25, 25, 25, 25, 25, 25, 25, 25, 25, 25, 25, 25, 25, 25, 25, 25, 25, 25, 25, 25, 25, 25, 25, 25, 25, 25, 25, 25,
   25, 25, 25, 25, 25, 25, 25, 25, 25, 25, 25, 25, 25, 25, 25, 25, 25, 25, 25, 25, 25, 25, 25, 25, 25, 25, 25, 25, 25,
   25, 25, 25, 25, 25, 25, 25, 25, 25, 25, 25, 25, 25, 25, 25, 25, 25, 25, 25, 25, 25, 25, 25, 25, 25, 25, 25, 25, 25,
   25, 25, 25, 25, 25, 25, 25, 25, 25, 25, 25, 25, 25, 25, 25]

/-- yy_meta, Builtparser/dbotter.yy.c:639 -/
def t_meta : List Nat :=
  [0, 1, 1, 2, 1, 1, 1, 1, 1, 1, 1, 1, 3, 4, 1, 4, 1, 4, 4, 4, 4, 1, 4, 1, 1, 4, 1, 1, 1, 4, 4, 4, 1, 1, 1, 1]

/-- yy_base, Builtparser/dbotter.yy.c:647 -/
def t_base : List Nat :=
  [0, 0, 0, 33, 34, 37, 38, 39, 40, 137, 138, 134, 0, 29, 138, 23, 0, 138, 126, 138, 138, 138, 138, 138, 138, 138,
   122, 39, 138, 24, 111, 111, 37, 138, 0, 138, 138, 138, 138, 138, 41, 138, 138, 138, 51, 138, 138, 138, 49, 0, 138,
   54, 129, 0, 138, 138, 0, 0, 138, 138, 112, 54, 107, 106, 138, 0, 0, 138, 138, 138, 138, 138, 138, 138, 138, 0, 66,
   72, 138, 0, 109, 59, 102, 138, 138, 0, 70, 99, 98, 74, 91, 88, 73, 72, 58, 51, 138, 45, 138, 138, 92, 96, 100, 104,
   108, 110, 114, 118, 120, 122]

/-- yy_def, Builtparser/dbotter.yy.c:663 -/
def t_def : List Nat :=
  [0, 99, 1, 100, 100, 101, 101, 102, 102, 99, 99, 99, 103, 99, 99, 99, 104, 99, 99, 99, 99, 99, 99, 99, 99, 99, 99,
   99, 99, 99, 99, 99, 99, 99, 105, 99, 99, 99, 99, 99, 99, 99, 99, 99, 99, 99, 99, 99, 99, 106, 99, 107, 99, 103, 99,
   99, 108, 104, 99, 99, 99, 99, 99, 99, 99, 109, 105, 99, 99, 99, 99, 99, 99, 99, 99, 106, 107, 107, 99, 108, 99, 99,
   99, 99, 99, 109, 99, 99, 99, 99, 99, 99, 99, 99, 99, 99, 99, 99, 99, 0, 99, 99, 99, 99, 99, 99, 99, 99, 99, 99]

/-- yy_nxt, Builtparser/dbotter.yy.c:679 -/
def t_nxt : List Nat :=
  [0, 10, 11, 12, 13, 14, 15, 16, 17, 18, 19, 20, 21, 22, 23, 24, 25, 26, 27, 28, 29, 30, 31, 32, 33, 34, 35, 10, 36,
   10, 34, 34, 37, 38, 39, 40, 42, 42, 43, 43, 46, 46, 50, 50, 54, 62, 47, 47, 56, 67, 55, 51, 51, 56, 56, 60, 69, 61,
   72, 63, 44, 44, 65, 98, 48, 48, 77, 65, 65, 97, 60, 78, 81, 82, 68, 60, 96, 86, 99, 73, 74, 70, 71, 99, 77, 88, 60,
   95, 89, 78, 60, 94, 89, 41, 41, 41, 41, 45, 45, 45, 45, 49, 49, 49, 49, 53, 93, 53, 53, 57, 92, 57, 57, 66, 66, 75,
   91, 90, 75, 76, 87, 76, 76, 79, 79, 85, 85, 80, 84, 83, 80, 52, 54, 64, 59, 58, 52, 99, 9, 99, 99, 99, 99, 99, 99,
   99, 99, 99, 99, 99, 99, 99, 99, 99, 99, 99, 99, 99, 99, 99, 99, 99, 99, 99, 99, 99, 99, 99, 99, 99, 99, 99, 99, 99]

/-- yy_chk, Builtparser/dbotter.yy.c:702 -/
def t_chk : List Nat :=
  [0, 1, 1, 1, 1, 1, 1, 1, 1, 1, 1, 1, 1, 1, 1, 1, 1, 1, 1, 1, 1, 1, 1, 1, 1, 1, 1, 1, 1, 1, 1, 1, 1, 1, 1, 1, 3, 4,
   3, 4, 5, 6, 7, 8, 13, 29, 5, 6, 15, 40, 13, 7, 8, 15, 15, 27, 44, 27, 48, 29, 3, 4, 32, 97, 5, 6, 51, 32, 32, 95,
   61, 51, 61, 61, 40, 81, 94, 81, 76, 48, 48, 44, 44, 76, 77, 86, 86, 93, 86, 77, 89, 92, 89, 100, 100, 100, 100,
   101, 101, 101, 101, 102, 102, 102, 102, 103, 91, 103, 103, 104, 90, 104, 104, 105, 105, 106, 88, 87, 106, 107, 82,
   107, 107, 108, 108, 109, 109, 80, 63, 62, 60, 52, 31, 30, 26, 18, 11, 9, 99, 99, 99, 99, 99, 99, 99, 99, 99, 99,
   99, 99, 99, 99, 99, 99, 99, 99, 99, 99, 99, 99, 99, 99, 99, 99, 99, 99, 99, 99, 99, 99, 99, 99, 99, 99]

/-- an entry of a table; the code never reads outside (Builtparser/dbotter.yy.c:1144-1156) -/
def at' (t : List Nat) (i : Nat) : Nat := (t[i]?).getD 0

/-- the class of a character, Builtparser/dbotter.yy.c:1144; a NUL inside of the text has class 1 (yy_try_NUL_trans, 1904-1927) -/
def ec (c : Char) : Nat := if c.toNat = 0 then 1 else if c.toNat < 128 then at' t_ec c.toNat else 25

/-- a transition, Builtparser/dbotter.yy.c:1150-1156; `k` bounds the length of the chain of default states -/
def delta : Nat → Nat → Nat → Nat
  | 0, _, _ => 99
  | k + 1, s, c =>
    if at' t_chk (at' t_base s + c) = s then at' t_nxt (at' t_base s + c)
    else
      let s' := at' t_def s
      delta k s' (if 100 ≤ s' then at' t_meta c else c)

/-- yy_match and yy_find_action, Builtparser/dbotter.yy.c:1142-1168: the action and the length of the match.  `last` are the action
and the position of the last accepting state.  At the end of the text the match ends as with a character that has no
transition (EOB_ACT_LAST_MATCH, 1690-1697). -/
def scan (s : Nat) (inp : List Char) (n : Nat) (last : Nat × Nat) : Nat × Nat :=
  let last := if at' t_accept s ≠ 0 then (at' t_accept s, n) else last
  match inp with
  | [] => last
  | c :: cs =>
    let s' := delta 4 s (ec c)
    if at' t_base s' = 138 then if at' t_accept s' ≠ 0 then (at' t_accept s', n + 1) else last
    else scan s' cs (n + 1) last

/-- a token: the number of the symbol (yytranslate, Builtparser/dbotter.tab.c:500-530) and the text in yylval -/
structure Tok where
  kind : Nat
  text : String
deriving DecidableEq, Repr

/-- what an action does -/
inductive Do where
  | tok (kind : Nat)      -- a token with the text that was matched
  | word (kind : Nat) (s : String)   -- a token with another text
  | start (s : Nat)       -- BEGIN, and the string is begun
  | put (c : Option Char) -- a character is added to the string; none: the one that was matched
  | close (kind : Nat)    -- the string is a token
  | back                  -- yyless(1)
  | skip
deriving DecidableEq, Repr

/-- the actions, Builtparser/dbotter.yy.c:1195-1592.  Punctuation does not set yylval. -/
def doing : Nat → Do
  | 1 => .tok 11 | 2 => .tok 16 | 3 => .tok 17 | 4 => .tok 18 | 5 => .tok 22 | 6 => .tok 20 | 7 => .tok 21 | 8 => .tok 24
  | 9 => .tok 23 | 10 => .tok 25 | 11 => .word 26 "$emptystr" | 12 => .tok 5 | 13 => .tok 6 | 14 => .tok 7 | 15 => .tok 8
  | 16 => .start 3 | 17 => .put (some '\n') | 18 => .put (some '\t') | 19 => .put (some '"') | 20 => .close 13 | 21 => .put (some '\n')
  | 22 => .put none
  | 23 => .start 5 | 24 => .put (some '\n') | 25 => .put (some '\t') | 26 => .put (some '\'') | 27 => .close 12 | 28 => .put (some '\n')
  | 29 => .put none
  | 30 => .start 7 | 31 => .skip | 32 => .skip | 33 => .skip | 34 => .start 1
  | 35 => .tok 11 | 36 => .tok 11 | 37 => .tok 15 | 38 => .back | 39 => .skip
  | 40 => .word 31 "" | 41 => .word 32 "" | 42 => .word 28 "" | 43 => .word 35 "" | 44 => .word 34 "" | 45 => .word 2 "" | 46 => .word 2 ""
  | 47 => .word 40 "" | 48 => .word 33 "" | 49 => .word 39 "" | 50 => .word 38 "" | 51 => .word 30 "" | 52 => .word 29 "" | 53 => .word 41 ""
  | 54 => .word 27 "" | 55 => .word 37 "" | 56 => .word 36 ""
  | _ => .skip

/-- the size of elmparsestrbuf, Parser/dbotter.l:98 -/
def strbuf : Nat := 1024

/-- bytes of a text -/
def bytes (l : List Char) : Nat := (l.map Char.utf8Size).sum

/-- the tokens of a text: yylex until it answers 0, Builtparser/dbotter.yy.c:1129-1592.  `s` is the start state, `buf` the string that
is being read.  `none`: something is written behind the end of elmparsestrbuf.  At the end of the text there is no complaint about a
string or a comment that is not closed (1582-1586).  Every match has a character at least; `k` bounds the number of matches. -/
def lexLoop : Nat → Nat → List Char → List Char → Option (List Tok)
  | 0, _, _, _ => some []
  | k + 1, s, buf, inp =>
    match inp with
    | [] => some []
    | c :: cs =>
      let m := scan s inp 0 (0, 0)
      let text := inp.take m.2
      let rest := inp.drop m.2
      match doing m.1 with
      | .tok kind => (lexLoop k s buf rest).map (⟨kind, String.ofList text⟩ :: ·)
      | .word kind t => (lexLoop k s buf rest).map (⟨kind, t⟩ :: ·)
      | .start s' => lexLoop k s' [] rest
      | .put x => if strbuf < bytes buf + (x.getD c).utf8Size then none else lexLoop k s (buf ++ [x.getD c]) rest
      | .close kind => if strbuf ≤ bytes buf then none else (lexLoop k 1 buf rest).map (⟨kind, String.ofList buf⟩ :: ·)
      | .back => lexLoop k s buf cs
      | .skip => lexLoop k s buf rest

/-- the tokens of a text -/
def lex (inp : List Char) : Option (List Tok) := lexLoop inp.length 1 [] inp

end Gkc.Ps
