import Verif.JsLogic
/-
The list notation of JSON-LD-LOGIC as the documentation describes it (Doc/json_ld_logic.md): how formulas are
written as JSON lists, and what they mean.  This file is the specification; the only things it takes from the
model are the JSON values and the encoding of a name as a symbol of the prover.
-/
namespace Gkc.Js.Spec
open Gkc.Js (Jv anon)
open Gkc.Clausify (Nm uri primOf renameF FInt)

/-- words with a meaning of their own -/
def reserved : List String :=
  ["not", "~", "-", "and", "or", "&", "|", "if", "then", "forall", "exists", "<=>", "=>", "<=", "<~>", "~|", "~&", "@",
   "=", "~=", "-=", "!=", "+", "*", "/", "imp", "eqv", "all"]

/-- "?:x" is a variable wherever it stands -/
def qvar (s : String) : Bool := decide (s.toList.take 2 = ['?', ':'] ∧ 2 < s.toList.length)

/-- other variables are quantified names with a capital -/
def capital (s : String) : Bool := match s.toList with
  | c :: _ => decide ('A' ≤ c ∧ c ≤ 'Z')
  | [] => false

/-- terms -/
inductive Tm where
  | name (s : String)
  | num (ty : Nat) (txt : String)
  | app (f : String) (as : List Tm)
  | arith (op : String) (a b : Tm)

/-- formulas -/
inductive Fm where
  /-- `["p", a, ...]` -/
  | atom (p : String) (as : List Tm)
  /-- `["-p", a, ...]` -/
  | natom (c : Char) (p : String) (as : List Tm)
  /-- `"p"` -/
  | prop (p : String)
  /-- `"-p"` -/
  | nprop (p : String)
  /-- `true`, `false` -/
  | const (b : Bool)
  /-- `[a, "=", b]`, `["=", a, b]`, and with `!=`, `~=`, `-=` -/
  | eq (op : String) (pre : Bool) (a b : Tm)
  /-- `["not", f]`, `["-", f]`, `["~", f]` -/
  | neg (w : String) (f : Fm)
  /-- `[f, "=>", g]` and the like -/
  | infx (op : String) (a b : Fm)
  /-- `[f, "&", g, "&", h]` or `["and", f, g, h]` and so on -/
  | many (w : String) (pre : Bool) (fs : List Fm)
  /-- `[[...], ...]`: a list of literals is a disjunction -/
  | clause (fs : List Fm)
  /-- `["forall", ["X", ...], f]` -/
  | quant (w : String) (vs : List String) (f : Fm)
  /-- `["if", f, ..., "then", g, ...]` -/
  | ifThen (cs ds : List Fm)

/-! ### Writing -/

/-- a string -/
def str (s : String) : Jv := .atom (uri s)

mutual
/-- a term in JSON -/
def render : Tm → Jv
  | .name s => str s
  | .num ty txt => .atom ⟨ty, txt⟩
  | .app f as => .list (str f :: renderL as)
  | .arith op a b => .list [render a, str op, render b]
/-- terms in JSON -/
def renderL : List Tm → List Jv
  | [] => []
  | a :: as => render a :: renderL as
end

/-- a word between the elements -/
def sep (w : String) : List Jv → List Jv
  | [] => []
  | [x] => [x]
  | x :: y :: xs => x :: str w :: sep w (y :: xs)

mutual
/-- a formula in JSON -/
def Fm.json : Fm → Jv
  | .atom p as => .list (str p :: renderL as)
  | .natom c p as => .list (str (String.ofList (c :: p.toList)) :: renderL as)
  | .prop p => str p
  | .nprop p => str (String.ofList ('-' :: p.toList))
  | .const b => .atom (anon (if b then "$true" else "$false"))
  | .eq op pre a b => if pre then .list [str op, render a, render b] else .list [render a, str op, render b]
  | .neg w f => .list [str w, f.json]
  | .infx op a b => .list [a.json, str op, b.json]
  | .many w pre fs => if pre then .list (str w :: jsonL fs) else .list (sep w (jsonL fs))
  | .clause fs => .list (jsonL fs)
  | .quant w vs f => .list [str w, .list (vs.map str), f.json]
  | .ifThen cs ds => .list (str "if" :: (jsonL cs ++ str "then" :: jsonL ds))
/-- formulas in JSON -/
def jsonL : List Fm → List Jv
  | [] => []
  | f :: fs => f.json :: jsonL fs
end

/-! ### Meaning -/

/-- a structure: one meaning for each string and number -/
structure Str (D : Type) where
  cst : String → D
  num : Nat → String → D
  fn : String → List D → D
  pr : String → List D → Prop

section
variable {D : Type}

mutual
/-- value of a term; `sc`: the quantified names, `v`: values of variables -/
def Str.ev (S : Str D) (sc : List String) (v : String → D) : Tm → D
  | .name s => if qvar s ∨ s ∈ sc then v s else S.cst s
  | .num ty txt => S.num ty txt
  | .app f as => S.fn f (S.evL sc v as)
  | .arith op a b => S.fn op [S.ev sc v a, S.ev sc v b]
/-- values of terms -/
def Str.evL (S : Str D) (sc : List String) (v : String → D) : List Tm → List D
  | [] => []
  | a :: as => S.ev sc v a :: S.evL sc v as
end

mutual
/-- truth of a formula -/
def Str.means (S : Str D) (sc : List String) (v : String → D) : Fm → Prop
  | .atom p as => S.pr p (S.evL sc v as)
  | .natom _ p as => ¬ S.pr p (S.evL sc v as)
  | .prop p => S.pr p []
  | .nprop p => ¬ S.pr p []
  | .const b => b = true
  | .eq op _ a b => if op = "=" then S.pr "=" [S.ev sc v a, S.ev sc v b] else ¬ S.pr "=" [S.ev sc v a, S.ev sc v b]
  | .neg _ f => ¬ S.means sc v f
  | .infx op a b =>
    if op = "=>" then S.means sc v a → S.means sc v b
    else if op = "<=" then S.means sc v b → S.means sc v a
    else if op = "<=>" then (S.means sc v a ↔ S.means sc v b)
    else if op = "<~>" then ¬ (S.means sc v a ↔ S.means sc v b)
    else if op = "~|" then ¬ (S.means sc v a ∨ S.means sc v b)
    else ¬ (S.means sc v a ∧ S.means sc v b)
  | .many w _ fs => if w = "&" ∨ w = "and" then S.allOf sc v fs else S.anyOf sc v fs
  | .clause fs => S.anyOf sc v fs
  | .quant w vs f =>
    if w = "forall" then ∀ v', (∀ s, s ∉ vs → v' s = v s) → S.means (vs ++ sc) v' f
    else ∃ v', (∀ s, s ∉ vs → v' s = v s) ∧ S.means (vs ++ sc) v' f
  | .ifThen cs ds => S.allOf sc v cs → S.anyOf sc v ds
/-- all are true -/
def Str.allOf (S : Str D) (sc : List String) (v : String → D) : List Fm → Prop
  | [] => True
  | f :: fs => S.means sc v f ∧ S.allOf sc v fs
/-- one is true -/
def Str.anyOf (S : Str D) (sc : List String) (v : String → D) : List Fm → Prop
  | [] => False
  | f :: fs => S.means sc v f ∨ S.anyOf sc v fs
end
end

/-! ### Free variables -/

mutual
/-- the free variables of a term -/
def fvT (sc : List String) : Tm → List String
  | .name s => if qvar s ∧ s ∉ sc then [s] else []
  | .num _ _ => []
  | .app _ as => fvTL sc as
  | .arith _ a b => fvT sc a ++ fvT sc b
/-- the free variables of terms -/
def fvTL (sc : List String) : List Tm → List String
  | [] => []
  | a :: as => fvT sc a ++ fvTL sc as
end

mutual
/-- the free variables of a formula -/
def Fm.fv (sc : List String) : Fm → List String
  | .atom _ as => fvTL sc as
  | .natom _ _ as => fvTL sc as
  | .prop _ => []
  | .nprop _ => []
  | .const _ => []
  | .eq _ _ a b => fvT sc a ++ fvT sc b
  | .neg _ f => f.fv sc
  | .infx _ a b => a.fv sc ++ b.fv sc
  | .many _ _ fs => fvL sc fs
  | .clause fs => fvL sc fs
  | .quant _ vs f => f.fv (vs ++ sc)
  | .ifThen cs ds => fvL sc cs ++ fvL sc ds
/-- the free variables of formulas -/
def fvL (sc : List String) : List Fm → List String
  | [] => []
  | f :: fs => f.fv sc ++ fvL sc fs
end

/-! ### How names are used -/

/-- the use of a name or number in a formula -/
inductive Use where
  | cst (s : String)
  | num (ty : Nat) (txt : String)
  | fn (s : String)
  | pr (s : String)
  | prop (s : String)
  | var (s : String)

mutual
/-- the uses in a term -/
def Tm.uses (sc : List String) : Tm → List Use
  | .name s => [if qvar s ∨ s ∈ sc then .var s else .cst s]
  | .num ty txt => [.num ty txt]
  | .app f as => .fn f :: usesTL sc as
  | .arith op a b => .fn op :: (a.uses sc ++ b.uses sc)
/-- the uses in terms -/
def usesTL (sc : List String) : List Tm → List Use
  | [] => []
  | a :: as => a.uses sc ++ usesTL sc as
end

mutual
/-- the uses in a formula -/
def Fm.uses (sc : List String) : Fm → List Use
  | .atom p as => .pr p :: usesTL sc as
  | .natom _ p as => .pr p :: usesTL sc as
  | .prop p => [.prop p]
  | .nprop p => [.prop p]
  | .const b => [.prop (if b then "$true" else "$false")]
  | .eq _ _ a b => .pr "=" :: (a.uses sc ++ b.uses sc)
  | .neg _ f => f.uses sc
  | .infx _ a b => a.uses sc ++ b.uses sc
  | .many _ _ fs => usesL sc fs
  | .clause fs => usesL sc fs
  | .quant _ vs f => vs.map .var ++ f.uses (vs ++ sc)
  | .ifThen cs ds => usesL sc cs ++ usesL sc ds
/-- the uses in formulas -/
def usesL (sc : List String) : List Fm → List Use
  | [] => []
  | f :: fs => f.uses sc ++ usesL sc fs
end

/-! ### Which formulas -/

/-- a name that is not a word of the language -/
def Name (s : String) : Prop := s ≠ "" ∧ s ∉ reserved ∧ s ≠ "@type" ∧ s ≠ "?:"

/-- a name that can have arguments: not a variable -/
def Fun (sc : List String) (s : String) : Prop := Name s ∧ qvar s = false ∧ s ∉ sc

/-- a name of a predicate: it does not begin with a negation sign -/
def Pred (sc : List String) (s : String) : Prop := Fun sc s ∧ s.toList.head? ≠ some '-' ∧ s.toList.head? ≠ some '~'

/-- a name that is the same symbol of the prover if it is stored as a uri and as an anonymous constant -/
def Plain (s : String) : Prop := primOf true (uri s) = primOf true (anon s)

mutual
/-- a term of the language -/
def WFT (sc : List String) : Tm → Prop
  | .name s => Name s
  | .num ty txt => (ty = 3 ∨ ty = 4) ∧ txt ≠ "" ∧ txt ∉ reserved
  | .app f as => (Fun sc f ∨ f ∈ ["+", "*", "-", "/"]) ∧ WFTL sc as
  | .arith op a b => op ∈ ["+", "*", "-", "/"] ∧ WFT sc a ∧ WFT sc b
/-- terms of the language -/
def WFTL (sc : List String) : List Tm → Prop
  | [] => True
  | a :: as => WFT sc a ∧ WFTL sc as
end

/-- is it written as a list? -/
def Fm.isList : Fm → Bool
  | .prop _ => false
  | .nprop _ => false
  | .const _ => false
  | _ => true

mutual
/-- a formula of the language -/
def WF (sc : List String) : Fm → Prop
  | .atom p as => Pred sc p ∧ as ≠ [] ∧ WFTL sc as
  | .natom c p as => (c = '-' ∨ c = '~') ∧ Pred sc p ∧ Plain p ∧ as ≠ [] ∧ WFTL sc as
  | .prop p => Pred sc p
  | .nprop p => Pred sc p
  | .const _ => True
  | .eq op _ a b => op ∈ ["=", "!=", "~=", "-="] ∧ WFT sc a ∧ WFT sc b
  | .neg w f => w ∈ ["not", "-", "~"] ∧ WF sc f
  | .infx op a b => op ∈ ["=>", "<=", "<=>", "<~>", "~|", "~&"] ∧ WF sc a ∧ WF sc b
  | .many w pre fs => w ∈ ["&", "and", "|", "or"] ∧ (if pre then 1 else 2) ≤ fs.length ∧ WFL sc fs
  | .clause fs => (∃ f r, fs = f :: r ∧ f.isList = true) ∧ WFL sc fs
  | .quant w vs f => w ∈ ["forall", "exists"] ∧ vs ≠ [] ∧ (∀ s ∈ vs, qvar s ∨ capital s) ∧ WF (vs ++ sc) f
  | .ifThen cs ds => cs ≠ [] ∧ ds ≠ [] ∧ WFL sc cs ∧ WFL sc ds
/-- formulas of the language -/
def WFL (sc : List String) : List Fm → Prop
  | [] => True
  | f :: fs => WF sc f ∧ WFL sc fs
end

/-! ### Meaning for the clausifier -/

/-- an interpretation of names that comes from one of the symbols of the prover: names with the same symbol have the
same meaning, and `$true` and `$false` have theirs -/
structure Symbols {D : Type} (I : FInt D) : Prop where
  pr : ∀ p q : Nm, (p.ty = 7 ∨ p.ty = 13) → (q.ty = 7 ∨ q.ty = 13) → primOf true p = primOf true q → I.pr p = I.pr q
  fn : ∀ f g : Nm, (f.ty = 7 ∨ f.ty = 13) → (g.ty = 7 ∨ g.ty = 13) → primOf true (renameF f) = primOf true (renameF g) → I.fn f = I.fn g
  tt : I.pr (anon "$true") []
  ff : ¬ I.pr (anon "$false") []

/-- the names mean for the clausifier what the strings mean in the structure -/
structure Reads {D : Type} (I : FInt D) (ρ : Nm → D) (S : Str D) (v : String → D) : Prop where
  cst : ∀ s, ρ (anon s) = S.cst s
  num : ∀ ty t, ty = 3 ∨ ty = 4 → ρ ⟨ty, t⟩ = S.num ty t
  fn : ∀ s, I.fn (anon s) = S.fn s
  pr : ∀ s, I.pr (anon s) = S.pr s
  var : ∀ s, ρ (uri s) = v s

end Gkc.Js.Spec
