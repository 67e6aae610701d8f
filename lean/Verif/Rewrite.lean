import Verif.Order
import Verif.Unify
import Verif.Build
/-
Rewriting with kept unit equations: Reasoner/rewrite.c, the rewriting part of
wr_build_calc_term (Reasoner/build.c) and the storing of rules (Reasoner/clstore.c).

During simplification of a given clause `build_subst` and `build_rename` are 0 and
`build_rewrite` is 1 (Reasoner/simp.c:187-197).
Simplifications: the local table and the table of the knowledge base are one list (the code
tries them one after the other); rules of blocked clauses are not in the list; the record of
used rules (`rewrite_clvec`) and `tmp_rewrites` are a count.
-/
namespace Gkc
open Term

/-- outcome of rewriting -/
inductive ROut (α : Type)
  /-- the recursion budget of the model ran out -/
  | fuel
  /-- undefined: a number used as a record address (matching), or an unset variable cell -/
  | ub
  /-- WG_ILLEGAL -/
  | illegal
  /-- a function symbol was replaced by something that is not a constant -/
  | bad
  /-- result and the number of rewrite steps -/
  | ok (a : α) (k : Nat)

/-- sequencing, adding the counts -/
def ROut.bind {α β : Type} (o : ROut α) (f : α → ROut β) : ROut β :=
  match o with
  | .fuel => .fuel
  | .ub => .ub
  | .illegal => .illegal
  | .bad => .bad
  | .ok a k => match f a with
    | .fuel => .fuel
    | .ub => .ub
    | .illegal => .illegal
    | .bad => .bad
    | .ok b j => .ok b (k + j)

/-- one step counted -/
def ROut.tick {α : Type} : ROut α → ROut α
  | .ok a k => .ok a (k + 1)
  | o => o

/-- the symbol by which rules are found, Reasoner/rewrite.c:74-79, clstore.c:662-670 -/
def headKey : Term → Term
  | .app f _ => .const f
  | t => t

/-- storing of a unit equation `a = b` as a rule, Reasoner/clstore.c:572-600 -/
def ruleOf (wd : Const → Int) (e : Term × Term) : Option (Term × Term) :=
  if orderEq wd e.1 e.2 = 1 then some (e.1, e.2)
  else if orderEq wd e.1 e.2 = 2 then some (e.2, e.1)
  else none

/-- the rules stored for a list of kept unit equations -/
def rulesOf (wd : Const → Int) (eqs : List (Term × Term)) : List (Term × Term) :=
  eqs.filterMap (ruleOf wd)

/-- the bucket of a key: `h` is the hash function (wr_term_basehash, Reasoner/hash.c:357);
different symbols may have one bucket -/
def bucketOf (h : Term → Nat) (rules : List (Term × Term)) (key : Term) : List (Term × Term) :=
  rules.filter (fun p => h (headKey p.1) == h key)

/-- what the loop over the bucket finds -/
inductive Found
  | none
  | ub
  | rule (r : Term) (s : St)

/-- the loop of wr_rewrite_term over the nodes, Reasoner/rewrite.c:111-163: the first rule whose
left side matches; bindings of failed attempts are cleared -/
def findRule (x : Term) : List (Term × Term) → Found
  | [] => .none
  | (l, r) :: rs => match matchT St.empty l x with
    | .ok s => .rule r s
    | .fail _ => findRule x rs
    | .ub => .ub

/-- the loop of wr_rewrite_constant over the nodes, Reasoner/rewrite.c:299-340 -/
def findConst (x : Term) : List (Term × Term) → Option Term
  | [] => none
  | (l, r) :: rs => if eqTerm l x then some r else findConst x rs

/-- wr_rewrite_constant, Reasoner/rewrite.c:258-370 -/
def rwConst (R : Term → List (Term × Term)) : Nat → Term → ROut Term
  | 0, _ => .fuel
  | n + 1, x => match findConst x (R (headKey x)) with
    | none => .ok x 0
    | some b => (rwConst R n b).tick

/-- a loop over fields -/
def mapR (f : Term → ROut Term) : List Term → ROut (List Term)
  | [] => .ok [] 0
  | a :: as => (f a).bind fun a' => (mapR f as).bind fun as' => .ok (a' :: as') 0

/-- wr_build_calc_term with `build_subst` 1, `build_rename` 0, `build_rewrite` 0
(Reasoner/build.c:310-452 called from rewrite.c:211-221): instance of the right side -/
def buildS (ev : Term → Option Term) (s : St) : Nat → Term → ROut Term
  | 0, _ => .fuel
  | n + 1, x => match walk s.b (n + 1) x with
    | none => .fuel
    | some (.app f as) => (mapR (buildS ev s n) as).bind fun as' =>
        match ev (.app f as') with
        | none => .illegal
        | some r => .ok r 0
    | some y => .ok y 0

mutual
/-- wr_build_calc_term with `build_subst` 0, `build_rename` 0, `build_rewrite` 1,
Reasoner/build.c:310-452.  The function symbol is one of the fields of the loop 390-408, so it is
passed to wr_rewrite_constant like a constant.  Computed truth values are returned at once
(433-434), everything else goes to wr_rewrite_term (444). -/
def rwBuild (ev : Term → Option Term) (R : Term → List (Term × Term)) : Nat → Term → ROut Term
  | 0, _ => .fuel
  | n + 1, x => match x with
    | .var v => .ok (.var v) 0
    | .const c => rwConst R n (.const c)
    | .app f as => (rwConst R n (.const f)).bind fun f' =>
        (mapR (rwBuild ev R n) as).bind fun as' =>
        match f' with
        | .const g => match ev (.app g as') with
          | none => .illegal
          | some r => if r.beq (.const aTrue) || r.beq (.const aFalse) then .ok r 0
              else rwTerm ev R n r
        | _ => .bad
/-- wr_rewrite_term, Reasoner/rewrite.c:55-255 -/
def rwTerm (ev : Term → Option Term) (R : Term → List (Term × Term)) : Nat → Term → ROut Term
  | 0, _ => .fuel
  | n + 1, x => match findRule x (R (headKey x)) with
    | .none => .ok x 0
    | .ub => .ub
    | .rule r s =>
      (match r with
      | .const c => rwConst R n (.const c)
      | .var v => (match s.b v with
        | none => .ub
        | some b => rwAgain ev R n b)
      | .app f as => (buildS ev s n (.app f as)).bind fun b => rwAgain ev R n b).tick
/-- the built right side is rewritten again, Reasoner/rewrite.c:236-246 -/
def rwAgain (ev : Term → Option Term) (R : Term → List (Term × Term)) : Nat → Term → ROut Term
  | 0, _ => .fuel
  | n + 1, b => match b with
    | .var v => .ok (.var v) 0
    | .const c => rwConst R n (.const c)
    | .app f as => rwBuild ev R n (.app f as)
end

end Gkc
