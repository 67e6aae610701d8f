import Verif.Parse
import Verif.ConvertSpec
/-
How formulas of first-order logic are written (TPTP syntax, `fof`), first as tokens, then as texts.  The formulas and the lists that should be
made of them are those of Verif/ConvertSpec.lean.
-/
namespace Gkc.Ps.Spec
open Gkc.Conv.Spec (T F Op)

/-! ### Tokens -/

/-- a name -/
def name (q : Bool) (s : String) : Tok := ⟨if q then 12 else 11, s⟩
def lpar : Tok := ⟨34, ""⟩
def rpar : Tok := ⟨35, ""⟩
def lbr : Tok := ⟨38, ""⟩
def rbr : Tok := ⟨39, ""⟩
def comma : Tok := ⟨40, ""⟩
def colon : Tok := ⟨41, ""⟩
def dot : Tok := ⟨33, ""⟩

/-- a connective -/
def opTok : Op → Tok
  | .and => ⟨27, ""⟩
  | .or => ⟨28, ""⟩
  | .imp => ⟨18, "=>"⟩
  | .rimp => ⟨22, "<="⟩
  | .eqv => ⟨20, "<=>"⟩
  | .xor => ⟨21, "<~>"⟩
  | .nor => ⟨23, "~|"⟩
  | .nand => ⟨24, "~&"⟩

/-- an arithmetic operator -/
def arTok (op : String) : Tok := ⟨if op = "+" then 36 else if op = "-" then 31 else 37, ""⟩

mutual
/-- a term; infix arithmetic is in parentheses -/
def toks : T → List Tok
  | .var x => [name false x]
  | .name q s => [name q s]
  | .obj s => [⟨13, s⟩]
  | .num t => [⟨5, t⟩]
  | .app q f as => name q f :: lpar :: (toksL as ++ [rpar])
  | .arith op a b => lpar :: (toks a ++ arTok op :: (toks b ++ [rpar]))
/-- terms with commas between them -/
def toksL : List T → List Tok
  | [] => []
  | [a] => toks a
  | a :: as => toks a ++ comma :: toksL as
end

mutual
/-- function symbols have arguments, operators are `+`, `-` and `*` -/
def ok : T → Prop
  | .app _ _ as => as ≠ [] ∧ okL as
  | .arith op a b => op ∈ ["+", "-", "*"] ∧ ok a ∧ ok b
  | _ => True
def okL : List T → Prop
  | [] => True
  | a :: as => ok a ∧ okL as
end

mutual
/-- places needed on the stacks of the parser -/
def room : T → Nat
  | .app _ _ as => max 4 (2 + roomL as)
  | .arith _ a b => max (1 + room a) (3 + room b)
  | _ => 1
/-- places needed for a list of terms -/
def roomL : List T → Nat
  | [] => 0
  | [a] => room a
  | a :: as => max (room a) (2 + roomL as)
end

mutual
/-- `Unit l f ts n`: the tokens are a way to write the formula where the grammar of TPTP wants a `fof_unit_formula`; `n` bounds the places
needed on the stacks of the parser.  With `l`, different connectives may stand side by side without parentheses and are applied from left
to right; TPTP does not allow that. -/
inductive Unit (l : Bool) : F → List Tok → Nat → Prop
  | atom (q : Bool) (p : String) (as : List T) (h : as ≠ []) (ha : okL as) :
      Unit l (.atom q p as) (name q p :: lpar :: (toksL as ++ [rpar])) (max 4 (2 + roomL as))
  | prop (q : Bool) (p : String) : Unit l (.prop q p) [name q p] 1
  | const (b : Bool) : Unit l (.const b) [name false (if b then "$true" else "$false")] 1
  | eq (a b : T) (ha : ok a) (hb : ok b) : Unit l (.eq a b) (toks a ++ ⟨17, "="⟩ :: toks b) (max (room a) (2 + room b))
  | neq (a b : T) (ha : ok a) (hb : ok b) : Unit l (.neq a b) (toks a ++ ⟨16, "!="⟩ :: toks b) (max (room a) (2 + room b))
  /-- `~` or `-` -/
  | neg {f ts n} (m : Bool) (h : Unit l f ts n) : Unit l (.neg f) (⟨if m then 31 else 32, ""⟩ :: ts) (n + 1)
  | all {f ts n} (vs : List String) (hv : vs ≠ []) (h : Unit l f ts n) :
      Unit l (.all vs f) (⟨30, ""⟩ :: lbr :: (toksL (vs.map .var) ++ rbr :: colon :: ts)) (max (2 + roomL (vs.map .var)) (5 + n))
  | ex {f ts n} (vs : List String) (hv : vs ≠ []) (h : Unit l f ts n) :
      Unit l (.ex vs f) (⟨29, ""⟩ :: lbr :: (toksL (vs.map .var) ++ rbr :: colon :: ts)) (max (2 + roomL (vs.map .var)) (5 + n))
  | paren {f ts n} (h : Formula l f ts n) : Unit l f (lpar :: (ts ++ [rpar])) (max (n + 1) 3)
/-- `Formula l f ts n`: the tokens are a way to write the formula (`fof_logic_formula`) -/
inductive Formula (l : Bool) : F → List Tok → Nat → Prop
  | unit {f ts n} (h : Unit l f ts n) : Formula l f ts n
  | chain {op f ts n} (h : Chain l op f ts n) : Formula l f ts n
/-- two formulas with a connective, or more than two with `&` or more than two with `|` -/
inductive Chain (l : Bool) : Op → F → List Tok → Nat → Prop
  | two {f g ts us n m} (op : Op) (hf : Unit l f ts n) (hg : Unit l g us m) : Chain l op (.bin op f g) (ts ++ opTok op :: us) (max n (2 + m))
  | more {f g ts us n m} (op op' : Op) (ho : l = true ∨ op = op' ∧ (op = .and ∨ op = .or)) (hf : Chain l op' f ts n) (hg : Unit l g us m) :
      Chain l op (.bin op f g) (ts ++ opTok op :: us) (max n (2 + m))
end

/-- a statement: a formula, or a formula with a kind (`fof`), a name and a role -/
structure Stmt where
  head : Option (String × Bool × String × String)
  frm : F

/-- the list that should be made of a statement -/
def Stmt.tree (s : Stmt) : Conv.Lst :=
  match s.head with
  | none => s.frm.tree
  | some (k, q, n, r) => .list [Conv.Spec.sym false k, Conv.Spec.sym q n, Conv.Spec.sym false r, s.frm.tree]

/-- `Writes l s ts n`: the tokens are a way to write the statement -/
inductive Writes (l : Bool) : Stmt → List Tok → Nat → Prop
  | bare {f ts n} (h : Formula l f ts n) : Writes l ⟨none, f⟩ (ts ++ [dot]) (max n 2)
  | item {f ts n} (k : String) (q : Bool) (nm r : String) (h : Formula l f ts n) :
      Writes l ⟨some (k, q, nm, r), f⟩
        (name false k :: lpar :: name q nm :: comma :: name false r :: comma :: (ts ++ [rpar, dot])) (6 + n)

/-- the statements of a file -/
inductive File (l : Bool) : List Stmt → List Tok → Prop
  | nil : File l [] []
  | cons {s ss ts us n} (h : Writes l s ts n) (hn : n < 9997) (hs : File l ss us) : File l (s :: ss) (ts ++ us)

mutual
/-- variables begin with a capital letter, names without quotes do not -/
def caps : T → Prop
  | .var x => Js.Spec.capital x = true
  | .name q s => q = true ∨ Js.Spec.capital s = false
  | .app _ _ as => capsL as
  | .arith _ a b => caps a ∧ caps b
  | _ => True
def capsL : List T → Prop
  | [] => True
  | a :: as => caps a ∧ capsL as
end

/-- the same for formulas -/
def capsF : F → Prop
  | .atom _ _ as => capsL as
  | .prop _ _ => True
  | .const _ => True
  | .eq a b => caps a ∧ caps b
  | .neq a b => caps a ∧ caps b
  | .neg f => capsF f
  | .bin _ f g => capsF f ∧ capsF g
  | .all _ f => capsF f
  | .ex _ f => capsF f

/-! ### Texts -/

/-- a letter, or a character that is not ASCII -/
def letter (c : Char) : Prop := 65 ≤ c.toNat ∧ c.toNat ≤ 90 ∨ 97 ≤ c.toNat ∧ c.toNat ≤ 122 ∨ 128 ≤ c.toNat
/-- a digit -/
def digit (c : Char) : Prop := 48 ≤ c.toNat ∧ c.toNat ≤ 57
/-- a character that the scanner takes for part of a name: a letter, a digit, or one of `_:+-*/<>` -/
def wordChar (c : Char) : Prop := letter c ∨ digit c ∨ c.toNat ∈ [95, 58, 43, 45, 42, 47, 60, 62]

/-- a character in quotes -/
def escaped (quote c : Char) : List Char := if c = quote then ['\\', c] else [c]

/-- the texts of the tokens that are always the same, and the characters that must not follow immediately -/
def signs : List (Tok × String × List Char) :=
  [(⟨34, ""⟩, "(", []), (⟨35, ""⟩, ")", []), (⟨38, ""⟩, "[", []), (⟨39, ""⟩, "]", []), (⟨40, ""⟩, ",", []), (⟨41, ""⟩, ":", []), (⟨33, ""⟩, ".", []),
   (⟨27, ""⟩, "&", []), (⟨28, ""⟩, "|", []), (⟨18, "=>"⟩, "=>", []), (⟨22, "<="⟩, "<=", ['>']), (⟨20, "<=>"⟩, "<=>", []), (⟨21, "<~>"⟩, "<~>", []),
   (⟨23, "~|"⟩, "~|", []), (⟨24, "~&"⟩, "~&", []), (⟨17, "="⟩, "=", ['>']), (⟨16, "!="⟩, "!=", []), (⟨36, ""⟩, "+", []), (⟨31, ""⟩, "-", []),
   (⟨37, ""⟩, "*", []), (⟨32, ""⟩, "~", ['&', '|']), (⟨30, ""⟩, "!", ['=', '-'])]

/-- `Shown t x no`: the token is written as `x`, and a character with the property `no` must not follow immediately -/
inductive Shown : Tok → List Char → (Char → Prop) → Prop
  | word {c cs} (hc : letter c) (hcs : ∀ x ∈ cs, wordChar x) : Shown ⟨11, String.ofList (c :: cs)⟩ (c :: cs) wordChar
  | dollar {c cs} (hc : letter c) (hcs : ∀ x ∈ cs, wordChar x) : Shown ⟨11, String.ofList ('$' :: c :: cs)⟩ ('$' :: c :: cs) wordChar
  | num {c cs} (hc : digit c) (hcs : ∀ x ∈ cs, digit x) :
      Shown ⟨5, String.ofList (c :: cs)⟩ (c :: cs) fun x => digit x ∨ x ∈ ['.', '-', ':']
  /-- a name in quotes: it is not empty, has no backslash, no NUL and at most 1023 bytes -/
  | quoted {cs} (h0 : cs ≠ []) (hb : '\\' ∉ cs) (hz : '\x00' ∉ cs) (hl : bytes cs < 1024) :
      Shown ⟨12, String.ofList cs⟩ ('\'' :: (cs.flatMap (escaped '\'') ++ ['\''])) fun _ => False
  | object {cs} (hb : '\\' ∉ cs) (hz : '\x00' ∉ cs) (hl : bytes cs < 1024) :
      Shown ⟨13, String.ofList cs⟩ ('"' :: (cs.flatMap (escaped '"') ++ ['"'])) fun _ => False
  | sign {t x no} (h : (t, x, no) ∈ signs) : Shown t x.toList (· ∈ no)
  | exists' : Shown ⟨29, ""⟩ ['?'] letter

/-- what may stand between tokens: blanks, ends of lines and comments -/
inductive Gap : List Char → Prop
  | nil : Gap []
  | blank {g} (c : Char) (h : c ∈ [' ', '\t', '\n']) (hg : Gap g) : Gap (c :: g)
  | line {g} (x : List Char) (h : '\n' ∉ x) (hg : Gap g) : Gap ('%' :: (x ++ '\n' :: g))
  | block {g} (x : List Char) (h : '*' ∉ x) (hg : Gap g) : Gap ('/' :: '*' :: (x ++ '*' :: '/' :: g))

/-- the texts of a list of tokens -/
inductive Text : List Tok → List Char → Prop
  | nil {g} (h : Gap g) : Text [] g
  | cons {g t x no ts r} (h : Gap g) (hx : Shown t x no) (hn : ∀ c, r.head? = some c → ¬ no c) (hr : Text ts r) : Text (t :: ts) (g ++ (x ++ r))

end Gkc.Ps.Spec
