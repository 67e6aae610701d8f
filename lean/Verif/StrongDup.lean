import Verif.Derive
/-
Strong duplicate removal: Reasoner/derive.c wr_find_strong_duplicates, wr_mark_repeated_vars and
Reasoner/unify.c wr_nomatch_term_uniquevars.
-/
namespace Gkc
open Term

/-- content of a variable cell while marking -/
inductive Mark
  /-- UNASSIGNED -/
  | no
  /-- NULL: seen once -/
  | once
  /-- itself: seen again -/
  | again
  deriving DecidableEq, Repr

/-- one variable occurrence in wr_mark_repeated_vars, Reasoner/derive.c:1497-1511 -/
def markVar (m : Nat → Mark) (v : Nat) : Nat → Mark :=
  fun w => if w = v then (match m v with
    | .no => .once
    | _ => .again) else m w

/-- wr_mark_repeated_vars over all atoms, Reasoner/derive.c:1356-1359: occurrences are visited
in term order -/
def markAll (cl : List Lit) : Nat → Mark :=
  (cl.flatMap (fun l => vars l.atom)).foldl markVar (fun _ => .no)

/-- answer of wr_nomatch_term_uniquevars -/
inductive NoMatch
  /-- 0: matches -/
  | matched
  /-- 1: fails because of variables -/
  | byVars
  /-- 2: fails because of constants or functions -/
  | byConst
  /-- a constant is used as the address of a record -/
  | ub
  deriving DecidableEq, Repr

mutual
/-- wr_nomatch_term_uniquevars, Reasoner/unify.c:451-526.  A constant `x` different from a
record `y` falls through to the record branch (unify.c:482-492), where it is used as a record
address: outcome `ub`. -/
def noMatch (m : Nat → Mark) : Term → Term → NoMatch
  | .var v, y => if m v = .once then .matched else if eqTerm (.var v) y then .matched else .byVars
  | .const c, y => if eqTerm (.const c) y then .matched else match y with
    | .var _ => .byVars
    | .const _ => .byConst
    | .app _ _ => .ub
  | .app f as, y => match y with
    | .var _ => .byVars
    | .const _ => .byConst
    | .app g bs =>
      if as.length ≠ bs.length then .byConst
      else if f ≠ g then .byConst
      else noMatchL m as bs
/-- the argument loop, Reasoner/unify.c:518-524 -/
def noMatchL (m : Nat → Mark) : List Term → List Term → NoMatch
  | a :: as, b :: bs => match noMatch m a b with
    | .matched => noMatchL m as bs
    | r => r
  | _, _ => .matched
end

/-- literal at a position, both signs and atom -/
def litAt (cl : List Lit) (i : Nat) : Lit := cl.getD i ⟨false, .const aFalse⟩

/-- one step of the inner loop, Reasoner/derive.c:1404-1431 -/
def dupStep (m : Nat → Mark) (cl : List Lit) (x y : Nat) (bl : Nat → Bool) : Option (Nat → Bool) :=
  if bl y then some bl
  else if (litAt cl x).neg == (litAt cl y).neg then
    match noMatch m (litAt cl x).atom (litAt cl y).atom with
    | .matched => some (fun i => if i = x then true else bl i)
    | .byVars => match noMatch m (litAt cl y).atom (litAt cl x).atom with
      | .matched => some (fun i => if i = y then true else bl i)
      | .ub => none
      | _ => some bl
    | .byConst => some bl
    | .ub => none
  else some bl

/-- the inner loop over `y`, Reasoner/derive.c:1403-1432; `k` literals left -/
def dupInner (m : Nat → Mark) (cl : List Lit) (x : Nat) : Nat → Nat → (Nat → Bool) → Option (Nat → Bool)
  | 0, _, bl => some bl
  | k + 1, y, bl => match dupStep m cl x y bl with
    | none => none
    | some bl' => dupInner m cl x k (y + 1) bl'

/-- the outer loop over `x`, Reasoner/derive.c:1398-1433; `k` literals left of `lim` -/
def dupOuter (m : Nat → Mark) (cl : List Lit) (lim : Nat) : Nat → Nat → (Nat → Bool) → Option (Nat → Bool)
  | 0, _, bl => some bl
  | k + 1, x, bl =>
    if bl x then dupOuter m cl lim k (x + 1) bl
    else match dupInner m cl x (lim - (x + 1)) (x + 1) bl with
      | none => none
      | some bl' => dupOuter m cl lim k (x + 1) bl'

/-- keeping the literals that are not blocked, Reasoner/derive.c:1449-1463 -/
def compact (bl : Nat → Bool) : Nat → List Lit → List Lit
  | _, [] => []
  | i, l :: ls => if i < 40 && bl i then compact bl (i + 1) ls else l :: compact bl (i + 1) ls

/-- wr_find_strong_duplicates, Reasoner/derive.c:1339-1473 (MAX_BLOCKED_LITNR 40).  `none`:
undefined behaviour. -/
def strongDup (cl : List Lit) : Option (List Lit) :=
  let occ := cl.flatMap (fun l => vars l.atom)
  let m := markAll cl
  if occ = [] then some cl
  else if occ.all (fun v => m v ≠ .once) then some cl
  else
    let lim := min cl.length 40
    match dupOuter m cl lim lim 0 (fun _ => false) with
    | none => none
    | some bl => some (compact bl 0 cl)

end Gkc
