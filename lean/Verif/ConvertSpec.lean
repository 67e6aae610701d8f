import Verif.Convert
import Verif.JsLogicSpec
/-
Formulas in the language of TPTP, what they mean, the lists the grammar makes of them (Parser/dbotter.y:116-340), and what it
means that a JSON text says the same.  The meaning is stated for the formula as it is written; it does not refer to the
printer.
-/
namespace Gkc.Conv.Spec
open Gkc.Json (J IsJson PlainChar)
open Gkc.Js (Jv)
open Gkc.Js.Spec (Name Plain qvar capital Str Symbols Reads)
open Gkc.Clausify (Nm Frm FInt)

/-- terms; `q` for "written with quotes" -/
inductive T where
  | var (x : String)
  | name (q : Bool) (s : String)
  /-- a distinct object, `"s"` -/
  | obj (s : String)
  | num (txt : String)
  | app (q : Bool) (f : String) (as : List T)
  | arith (op : String) (a b : T)

/-- connectives with two arguments -/
inductive Op where
  | and | or | imp | rimp | eqv | xor | nor | nand

/-- formulas -/
inductive F where
  | atom (q : Bool) (p : String) (as : List T)
  | prop (q : Bool) (p : String)
  | const (b : Bool)
  | eq (a b : T)
  | neq (a b : T)
  | neg (f : F)
  | bin (op : Op) (a b : F)
  | all (vs : List String) (f : F)
  | ex (vs : List String) (f : F)

/-! ### Meaning -/

/-- a structure; a name means the same with and without quotes -/
structure Struct (D : Type) where
  cst : String → D
  obj : String → D
  num : String → D
  fn : String → List D → D
  pr : String → List D → Prop

section
variable {D : Type}

mutual
/-- the value of a term -/
def Struct.ev (S : Struct D) (v : String → D) : T → D
  | .var x => v x
  | .name _ s => S.cst s
  | .obj s => S.obj s
  | .num t => S.num t
  | .app _ f as => S.fn f (S.evL v as)
  | .arith op a b => S.fn op [S.ev v a, S.ev v b]
/-- the values of terms -/
def Struct.evL (S : Struct D) (v : String → D) : List T → List D
  | [] => []
  | a :: as => S.ev v a :: S.evL v as
end

/-- a connective -/
def Op.holds : Op → Prop → Prop → Prop
  | .and, a, b => a ∧ b
  | .or, a, b => a ∨ b
  | .imp, a, b => a → b
  | .rimp, a, b => b → a
  | .eqv, a, b => (a ↔ b)
  | .xor, a, b => ¬ (a ↔ b)
  | .nor, a, b => ¬ (a ∨ b)
  | .nand, a, b => ¬ (a ∧ b)

/-- the truth of a formula -/
def Struct.means (S : Struct D) (v : String → D) : F → Prop
  | .atom _ p as => S.pr p (S.evL v as)
  | .prop _ p => S.pr p []
  | .const b => b = true
  | .eq a b => S.pr "=" [S.ev v a, S.ev v b]
  | .neq a b => ¬ S.pr "=" [S.ev v a, S.ev v b]
  | .neg f => ¬ S.means v f
  | .bin op a b => op.holds (S.means v a) (S.means v b)
  | .all vs f => ∀ v', (∀ x, x ∉ vs → v' x = v x) → S.means v' f
  | .ex vs f => ∃ v', (∀ x, x ∉ vs → v' x = v x) ∧ S.means v' f

/-- the same structure for the strings of JSON: `"#:s"` is a distinct object -/
def Struct.js (S : Struct D) : Str D where
  cst s := if ['#', ':'] <+: s.toList then S.obj (String.ofList (s.toList.drop 2)) else S.cst s
  num _ t := S.num t
  fn := S.fn
  pr := S.pr
end

/-! ### The lists of the grammar -/

/-- a name with or without quotes, `MKWGCONSTURI`, `MKWGURI` -/
def sym (q : Bool) (s : String) : Lst := .atom ⟨7, s, if q then some "c" else none⟩

/-- a word of the language, `MKWGCONST` -/
def word (s : String) : Lst := .atom ⟨13, s, none⟩

mutual
/-- the list for a term -/
def T.tree : T → Lst
  | .var x => sym false x
  | .name q s => sym q s
  | .obj s => .atom ⟨7, s, some "#"⟩
  | .num t => .atom ⟨3, t, none⟩
  | .app q f as => .list (sym q f :: trees as)
  | .arith op a b => .list [word op, a.tree, b.tree]
/-- the lists for terms -/
def trees : List T → List Lst
  | [] => []
  | a :: as => a.tree :: trees as
end

/-- the list for a formula -/
def F.tree : F → Lst
  | .atom q p as => .list (sym q p :: trees as)
  | .prop q p => sym q p
  | .const b => sym false (if b then "$true" else "$false")
  | .eq a b => .list [word "=", a.tree, b.tree]
  | .neq a b => .list [word "not", .list [word "=", a.tree, b.tree]]
  | .neg f => .list [word "not", f.tree]
  | .bin op a b => match op with
    | .and => .list [word "and", a.tree, b.tree]
    | .or => .list [word "or", a.tree, b.tree]
    | .imp => .list [word "imp", a.tree, b.tree]
    | .rimp => .list [word "imp", b.tree, a.tree]
    | .eqv => .list [word "eqv", a.tree, b.tree]
    | .xor => .list [word "not", .list [word "eqv", a.tree, b.tree]]
    | .nor => .list [word "not", .list [word "or", a.tree, b.tree]]
    | .nand => .list [word "not", .list [word "and", a.tree, b.tree]]
  | .all vs f => .list [word "all", .list (vs.map (sym false)), f.tree]
  | .ex vs f => .list [word "exists", .list (vs.map (sym false)), f.tree]

/-! ### Which formulas -/

/-- a string the printer writes as it is: no control characters and no backslash; and it is not taken for a word -/
def Text (s : String) : Prop :=
  (∀ c ∈ s.toList, PlainChar c) ∧ ¬ "$true".toList <+: s.toList ∧ ¬ "$false".toList <+: s.toList ∧ s ≠ "$emptystr"

/-- a variable -/
def Var (x : String) : Prop := capital x = true ∧ ∀ c ∈ x.toList, c.isAlphanum = true ∨ c = '_'

/-- a name that is no word of JSON-LD-LOGIC, no variable and not the word for lists; in quotes it may begin with a capital, if it is not the name of
a variable that is quantified there -/
def Sym (sc : List String) (q : Bool) (s : String) : Prop :=
  Text s ∧ Name s ∧ qvar s = false ∧ ¬ ['#', ':'] <+: s.toList ∧ s ∉ sc ∧
    (q = false → capital s = false ∧ s.toList.head? ≠ some '?') ∧ s ≠ "$$lst"

/-- a name of a predicate -/
def PredSym (sc : List String) (q : Bool) (p : String) : Prop :=
  Sym sc q p ∧ p.toList.head? ≠ some '-' ∧ p.toList.head? ≠ some '~'

/-- a number as "%ld" prints it -/
def Num (t : String) : Prop :=
  t.toList ≠ [] ∧ (∀ c ∈ t.toList, 48 ≤ c.toNat ∧ c.toNat ≤ 57) ∧ (t.toList.head? = some '0' → t.toList = ['0']) ∧ decVal t.toList < 2 ^ 63

mutual
/-- a term -/
def T.WF (sc : List String) : T → Prop
  | .var x => Var x
  | .name q s => Sym sc q s
  | .obj s => Text s
  | .num t => Num t
  | .app q f as => Sym sc q f ∧ as ≠ [] ∧ WFL sc as
  | .arith op a b => op ∈ ["+", "-", "*"] ∧ a.WF sc ∧ b.WF sc
/-- terms -/
def WFL (sc : List String) : List T → Prop
  | [] => True
  | a :: as => a.WF sc ∧ WFL sc as
end

/-- an atom with a plain name, if it is an atom -/
def F.Signed : F → Prop
  | .atom _ p _ => Plain p
  | _ => True

/-- a formula; `sc` for the variables quantified there -/
def F.WF (sc : List String) : F → Prop
  | .atom q p as => PredSym sc q p ∧ as ≠ [] ∧ WFL sc as
  | .prop q p => PredSym sc q p
  | .const _ => True
  | .eq a b => a.WF sc ∧ b.WF sc
  | .neq a b => a.WF sc ∧ b.WF sc
  | .neg f => f.WF sc ∧ f.Signed
  | .bin _ a b => a.WF sc ∧ b.WF sc
  | .all vs f => vs ≠ [] ∧ (∀ x ∈ vs, Var x) ∧ f.WF (vs ++ sc)
  | .ex vs f => vs ≠ [] ∧ (∀ x ∈ vs, Var x) ∧ f.WF (vs ++ sc)

/-! ### Saying the same -/

/-- the JSON value is read as a formula (C56) that is true in a structure exactly if `f` is, its free variables
taken as universally quantified -/
def Says (j : J) (f : F) : Prop :=
  ∃ (x y : Jv) (g : Frm), jv j = some x ∧ (∃ n, ∀ k, n ≤ k → Gkc.Js.formula k .other x = .ok y) ∧ Gkc.Js.readF y = some g ∧
    ∀ (D : Type) (I : FInt D) (ρ : Nm → D) (S : Struct D) (v : String → D), Symbols I → Reads I ρ S.js v →
      (I.holds ρ g ↔ ∀ w, S.means w f)

/-- a formula of a file: its name, its role -/
structure In where
  kw : String
  name : String
  role : String
  f : F

/-- the list for it -/
def In.item (i : In) : Item := ⟨i.kw, i.name, i.role, i.f.tree⟩

/-- name and role are plain strings, the formula is not just a propositional letter -/
structure In.Fine (i : In) : Prop where
  name : ∀ c ∈ i.name.toList, PlainChar c
  role : ∀ c ∈ i.role.toList, PlainChar c ∧ c ≠ '"'
  wf : i.f.WF []
  big : ∀ q p, i.f ≠ .prop q p

/-- a line of the input: a formula, or a file of formulas -/
inductive Line where
  | frm (i : In)
  | incl (is : List In)

/-- the list for it -/
def Line.entry : Line → Entry
  | .frm i => .item i.item
  | .incl is => .incl (is.map In.item)

/-- the formulas with the names they get: an included one is marked, and its name is not longer than 900 -/
def Line.named : Line → List (String × In)
  | .frm i => [(i.name, i)]
  | .incl is => is.map fun i => ("$inc_" ++ String.ofList (i.name.toList.take 900), i)

/-- the object for a formula -/
def Object (i : String × In) (j : J) : Prop :=
  ∃ l, j = .obj [("@name".toList, .str i.1.toList), ("@role".toList, .str i.2.role.toList), ("@logic".toList, l)] ∧ Says l i.2.f

/-- files included are not empty, and formulas are fine -/
def Line.Fine : Line → Prop
  | .frm i => i.Fine
  | .incl is => is ≠ [] ∧ ∀ i ∈ is, i.Fine

/-- is it a formula? -/
def Line.isFrm : Line → Bool
  | .frm _ => true
  | .incl _ => false

end Gkc.Conv.Spec
