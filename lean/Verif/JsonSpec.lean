import Verif.Json
/-
JSON texts (RFC 8259), and the document a proof should be written as.  The grammar is a relation between
texts and values; nothing of it refers to the printer.
-/
namespace Gkc.Json
open Gkc.Hist (Line Item Rule W)

/-- a JSON value; numbers are kept as they are written -/
inductive J
  | num (raw : List Char)
  | str (s : List Char)
  | tru | fls | null
  | arr (l : List J)
  | obj (l : List (List Char × J))

/-! ### Grammar -/

/-- insignificant whitespace -/
def IsWs (c : Char) : Prop := c = ' ' ∨ c = '\n' ∨ c = '\t' ∨ c = '\r'

/-- a decimal digit -/
def IsDig (c : Char) : Prop := 48 ≤ c.toNat ∧ c.toNat ≤ 57

/-- value of a hexadecimal digit -/
def hexVal (c : Char) : Option Nat :=
  if 48 ≤ c.toNat ∧ c.toNat ≤ 57 then some (c.toNat - 48)
  else if 97 ≤ c.toNat ∧ c.toNat ≤ 102 then some (c.toNat - 87)
  else if 65 ≤ c.toNat ∧ c.toNat ≤ 70 then some (c.toNat - 55)
  else none

/-- escapes with one letter -/
def escChar (c : Char) : Option Char :=
  if c = '"' then some '"'
  else if c = '\\' then some '\\'
  else if c = '/' then some '/'
  else if c = 'b' then some (Char.ofNat 8)
  else if c = 'f' then some (Char.ofNat 12)
  else if c = 'n' then some '\n'
  else if c = 'r' then some '\r'
  else if c = 't' then some '\t'
  else none

/-- what may stand between the quotes of a string, and the string meant -/
inductive StrRaw : List Char → List Char → Prop
  | nil : StrRaw [] []
  | plain {c r s} : c ≠ '"' → c ≠ '\\' → 32 ≤ c.toNat → StrRaw r s → StrRaw (c :: r) (c :: s)
  | esc {e c r s} : escChar e = some c → StrRaw r s → StrRaw ('\\' :: e :: r) (c :: s)
  | uni {h1 h2 h3 h4 v1 v2 v3 v4 r s} : hexVal h1 = some v1 → hexVal h2 = some v2 → hexVal h3 = some v3 →
      hexVal h4 = some v4 → StrRaw r s →
      StrRaw ('\\' :: 'u' :: h1 :: h2 :: h3 :: h4 :: r) (Char.ofNat (((v1 * 16 + v2) * 16 + v3) * 16 + v4) :: s)

/-- integer part: no zero in front -/
def IntPart (ds : List Char) : Prop :=
  ds ≠ [] ∧ (∀ c ∈ ds, IsDig c) ∧ (ds.head? = some '0' → ds = ['0'])

/-- a number -/
def NumOk (r : List Char) : Prop :=
  ∃ sign ip fr ex : List Char, r = sign ++ ip ++ fr ++ ex ∧ (sign = [] ∨ sign = ['-']) ∧ IntPart ip ∧
    (fr = [] ∨ ∃ ds, ds ≠ [] ∧ (∀ c ∈ ds, IsDig c) ∧ fr = '.' :: ds) ∧
    (ex = [] ∨ ∃ (e : Char) (sg ds : List Char), (e = 'e' ∨ e = 'E') ∧ (sg = [] ∨ sg = ['+'] ∨ sg = ['-']) ∧
      ds ≠ [] ∧ (∀ c ∈ ds, IsDig c) ∧ ex = e :: (sg ++ ds))

/-- what a text can stand for: a value, values with commas between, members of an object -/
inductive Piece
  | val (j : J)
  | elems (l : List J)
  | mems (l : List (List Char × J))

/-- the grammar -/
inductive G : List Char → Piece → Prop
  | wsl {c t j} : IsWs c → G t (.val j) → G (c :: t) (.val j)
  | wsr {c t j} : IsWs c → G t (.val j) → G (t ++ [c]) (.val j)
  | num {r} : NumOk r → G r (.val (.num r))
  | str {r s} : StrRaw r s → G ('"' :: (r ++ ['"'])) (.val (.str s))
  | tru : G ['t', 'r', 'u', 'e'] (.val .tru)
  | fls : G ['f', 'a', 'l', 's', 'e'] (.val .fls)
  | null : G ['n', 'u', 'l', 'l'] (.val .null)
  | arr0 {w} : (∀ c ∈ w, IsWs c) → G ('[' :: (w ++ [']'])) (.val (.arr []))
  | arr {t l} : G t (.elems l) → G ('[' :: (t ++ [']'])) (.val (.arr l))
  | obj0 {w} : (∀ c ∈ w, IsWs c) → G ('{' :: (w ++ ['}'])) (.val (.obj []))
  | obj {t l} : G t (.mems l) → G ('{' :: (t ++ ['}'])) (.val (.obj l))
  | one {t j} : G t (.val j) → G t (.elems [j])
  | more {t u j l} : G t (.val j) → G u (.elems l) → G (t ++ ',' :: u) (.elems (j :: l))
  | mem {w r w' t k j} : (∀ c ∈ w, IsWs c) → StrRaw r k → (∀ c ∈ w', IsWs c) → G t (.val j) →
      G (w ++ '"' :: (r ++ '"' :: (w' ++ ':' :: t))) (.mems [(k, j)])
  | mems {t u m l} : G t (.mems [m]) → G u (.mems l) → G (t ++ ',' :: u) (.mems (m :: l))

/-- `t` is a JSON text for the value `j` -/
def IsJson (t : List Char) (j : J) : Prop := G t (.val j)

/-! ### What should be written -/

/-- the value for a symbol -/
def symJ (neg : Bool) : Sym → J
  | .null => .null
  | .int v => .num (decInt v.toInt)
  | .dbl s ip fp => .num ((if s then ['-'] else []) ++ dec ip ++ '.' :: six fp)
  | .nonfinite _ => .null
  | .str s => .str ((if neg then ['-'] else []) ++ ':' :: s)
  | .uri name pre =>
    .str ((if neg then ['-'] else []) ++ (if pre = some ['#'] then ['#', ':'] else []) ++
      (if neg = false ∧ pre = none ∧ name = emptyName then [] else name))
  | .var n => .str ('?' :: ':' :: varName n)
  | .anon name => .str ((if neg then ['-'] else []) ++ name)

mutual
/-- the value for a term: a list of its fields -/
def termJ : PT → J
  | .leaf s => symJ false s
  | .node hd args => .arr (termJ hd :: termsJ args)
/-- the values for terms -/
def termsJ : List PT → List J
  | [] => []
  | a :: r => termJ a :: termsJ r
end

/-- the value for a literal: the sign is part of the name of the predicate -/
def litJ (l : PLit) : J := .arr (symJ l.neg l.head :: l.args.map termJ)

/-- the value for a clause -/
def clauseJ (c : List PLit) : J := .arr (c.map litJ)

/-- the value for the clause of a line -/
def clJ (e : Env) : Option Nat → J
  | some c => clauseJ (e.clause c)
  | none => .fls

/-- the value for a premise -/
def itemJ (e : Env) : Item → J
  | .ref n [] none => .num (dec n)
  | .ref n ps side =>
    .arr (.num (dec n) :: (ps.map (fun p => .num (dec p)) ++
      (match side with | some true => [.str ['L']] | some false => [.str ['R']] | none => [])))
  | .term w => termJ (e.term w)
  | .subst v w => .arr [.str ('V' :: dec v), termJ (e.term w)]

/-- the values for the priority -/
def prioJ (e : Env) (l : Line) : List J :=
  if e.extra then
    match roleText (e.prio l) with
    | some r => [.str r]
    | none => if e.prio l ≠ 0 then [.str ['d', 'p'], .num (dec (e.prio l))] else []
  else []

/-- the value for a line: number, rule with premises, clause -/
def lineJ (e : Env) (l : Line) : J :=
  match l.rule with
  | .input =>
    .arr [.num (dec l.num),
      .arr (.str (ruleText l.rule) :: ((match e.name l with
        | .none => []
        | .str s => [.str s]
        | .int v => [.num (decInt v.toInt)]) ++ prioJ e l)), clJ e l.cl]
  | .arithinst =>
    .arr [.num (dec l.num),
      .arr (.str (ruleText l.rule) :: ((l.items.take 1).map (itemJ e) ++
        .arr (((l.items.drop 1).takeWhile isSubst).map (itemJ e)) ::
        ((l.items.drop 1).dropWhile isSubst).map (itemJ e))), clJ e l.cl]
  | _ =>
    .arr [.num (dec l.num), .arr (.str (ruleText l.rule) :: (l.items.map (itemJ e) ++ prioJ e l)), clJ e l.cl]

/-- the value for an answer with its proof -/
def answerJ (e : Env) (a : Option Nat × List Line) : J :=
  .obj ((match a.1 with
      | some c => [("answer".toList, clauseJ (e.clause c))]
      | none => []) ++ [("proof".toList, .arr (a.2.map (lineJ e)))])

/-- the value for the whole document -/
def docJ (e : Env) (level : Nat) (as : List (Option Nat × List Line)) : J :=
  .obj (("result".toList, .str "proof found".toList) ::
    (if level < 10 then [] else [("answers".toList, .arr (as.map (answerJ e)))]))

/-! ### What the printer can write -/

/-- a character written as it is inside a string -/
def PlainChar (c : Char) : Prop := c ≠ '\\' ∧ 32 ≤ c.toNat

/-- a symbol the printer writes correctly -/
def Sym.Plain : Sym → Prop
  | .null => False
  | .int v => -2147483648 ≤ v.toInt ∧ v.toInt < 2147483648
  | .dbl _ _ _ => True
  | .nonfinite _ => False
  | .str s => ∀ c ∈ s, PlainChar c ∧ c ≠ '"'
  | .uri name _ => ∀ c ∈ name, PlainChar c
  | .var _ => True
  | .anon name => name = []

/-- not one of the symbols the printer has a word for -/
def Sym.NoOp : Sym → Prop
  | .uri name _ => name ≠ ['+'] ∧ name ≠ ['*'] ∧ name ≠ ['-'] ∧ name ≠ ['/'] ∧ name ≠ ['<']
  | _ => True

mutual
/-- a field of a term the printer writes correctly -/
def PT.FieldOk : PT → Prop
  | .leaf s => s.Plain ∧ s.NoOp
  | .node hd args => hd.FieldOk ∧ args ≠ [] ∧ FieldsOk args
/-- fields of a term the printer writes correctly -/
def FieldsOk : List PT → Prop
  | [] => True
  | a :: r => a.FieldOk ∧ FieldsOk r
end

/-- a term the printer writes correctly -/
def PT.Ok : PT → Prop
  | .leaf s => s.Plain
  | .node hd args => hd.FieldOk ∧ args ≠ [] ∧ FieldsOk args

/-- a literal the printer writes correctly -/
def PLit.Ok (l : PLit) : Prop :=
  (match l.head with
    | .uri _ _ => True
    | .str _ => True
    | _ => False) ∧ l.head.Plain ∧ ∀ t ∈ l.args, t.Ok

/-- an item whose terms the printer writes correctly -/
def ItemOk (e : Env) : Item → Prop
  | .ref _ _ _ => True
  | .term w => (e.term w).Ok
  | .subst _ w => (e.term w).Ok

/-- a line the printer writes correctly: factoring and propositional instances only with the flag
`print_history_extra`, and no call of the external solver -/
def LineOk (e : Env) (l : Line) : Prop :=
  (∀ c, l.cl = some c → ∀ x ∈ e.clause c, x.Ok) ∧
  (∀ i ∈ l.items, ItemOk e i) ∧
  (match l.rule with
    | .input => (match e.name l with
        | .none => True
        | .str s => ∀ c ∈ s, PlainChar c ∧ c ≠ '"'
        | .int v => -2147483648 ≤ v.toInt ∧ v.toInt < 2147483648)
    | .merge => e.extra = true ∧ l.items ≠ []
    | .inst => e.extra = true ∧ l.items ≠ []
    | .extprop => False
    | .unknown => False
    | _ => l.items ≠ [])

end Gkc.Json
