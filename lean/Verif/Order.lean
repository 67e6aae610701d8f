import Verif.Unify
/-
The term ordering that orients equations: Reasoner/strat.c wr_order_eqterms and its helpers
(lines 900-1465), with the macros of strat.c:52-58 (NORMAL_CONSTANT_ORDER and SUBLISTS_FIXED
defined, KB_WEIGHTS_ORDER not).

Modelled for `vb` = NULL (no bindings followed), as it is called when equations are stored
(clstore.c:571, clmeta.c:191).  Variables are compared by number instead of by word, which is
the same order (Db/dbdata.h:379).  `wd` is the word of a constant; two constants are the same
word only if they are the same constant.  `int` weights do not overflow.
-/
namespace Gkc
open Term

/-- a counted variable list, Reasoner/strat.c:1072-1090.  `mx` is one more than `varlist[2]`
(0 for the initial -1). -/
structure VL where
  els : List (Nat × Nat)
  mx : Nat

/-- wr_clear_countedvarlist, Reasoner/strat.c:1072-1076 -/
def VL.empty : VL := ⟨[], 0⟩

/-- capacity: the vectors have 4+2*NROF_VARSINBANK elements, Reasoner/glb.c:840,843 -/
def vlCap : Nat := 1000

/-- the search loop of wr_record_varocc, Reasoner/strat.c:1095-1100: increase the count of `x`,
`none` if it is not there -/
def incr (x : Nat) : List (Nat × Nat) → Option (List (Nat × Nat))
  | [] => none
  | (v, c) :: es => if v = x then some ((v, c + 1) :: es) else (incr x es).map ((v, c) :: ·)

/-- wr_record_varocc, Reasoner/strat.c:1090-1113 -/
def record (x : Nat) (l : VL) : VL :=
  match (if x < l.mx then incr x l.els else none) with
  | some es => ⟨es, l.mx⟩
  | none =>
    if l.els.length ≥ vlCap then l
    else ⟨l.els ++ [(x, 1)], if x ≥ l.mx then x + 1 else l.mx⟩

mutual
/-- wr_order_eqterms_weight_vars, Reasoner/strat.c:1165-1211: EQ_ORDER_VAR_WEIGHT and the weight
of constants are 10; the function symbol is one of the fields. -/
def weightVars : Term → VL → Nat × VL
  | .var v, l => (10, record v l)
  | .const _, l => (10, l)
  | .app _ as, l =>
    let r := weightVarsL as l
    (10 + r.1, r.2)
/-- the loop over the fields, strat.c:1195-1208 -/
def weightVarsL : List Term → VL → Nat × VL
  | [], l => (0, l)
  | a :: as, l =>
    let r := weightVars a l
    let q := weightVarsL as r.2
    (r.1 + q.1, q.2)
end

/-- inner loop of wr_countedvarlist_is_subset, strat.c:1260-1280 -/
def countIn (v c : Nat) : List (Nat × Nat) → Bool
  | [] => false
  | (w, d) :: ys => if v = w then decide (c ≤ d) else countIn v c ys

/-- wr_countedvarlist_is_subset, Reasoner/strat.c:1220-1286, both lists non-NULL -/
def subList (x y : VL) : Bool :=
  if x.els.isEmpty then true
  else if y.els.isEmpty then false
  else if x.els.length > y.els.length then false
  else if x.mx > y.mx then false
  else x.els.all (fun p => countIn p.1 p.2 y.els)

/-- wr_order_eqterms_const_lex_smaller, Reasoner/strat.c:1461-1465: the larger word is smaller -/
def constSmaller (wd : Const → Int) (x y : Const) : Bool := decide (wd x > wd y)

mutual
/-- wr_order_eqterms_lex_order, Reasoner/strat.c:1295-1372: 0 equal, 1 `x` smaller, 2 `y`
smaller, 3 not comparable.  Two references to one record are equal, which the recursion also
finds. -/
def lexOrder (wd : Const → Int) : Term → Term → Nat
  | .var v, y => match y with
    | .var w => if v = w then 0 else 3
    | _ => 3
  | .const c, y => match y with
    | .var _ => 3
    | .const d => if wd c = wd d then 0 else if constSmaller wd c d then 1 else 2
    | .app _ _ => 1
  | .app f as, y => match y with
    | .var _ => 3
    | .const _ => 2
    | .app g bs =>
      if as.length < bs.length then 1
      else if bs.length < as.length then 2
      else if wd f = wd g then lexOrderL wd as bs
      else if constSmaller wd f g then 1 else 2
/-- the loop over the fields, strat.c:1361-1370 -/
def lexOrderL (wd : Const → Int) : List Term → List Term → Nat
  | a :: as, b :: bs => match lexOrder wd a b with
    | 0 => lexOrderL wd as bs
    | r => r
  | _, _ => 0
end

mutual
/-- wr_order_eqterms_occurs_in, Reasoner/strat.c:1133-1163, for a variable and the arguments of
a record -/
def occIn (v : Nat) : Term → Bool
  | .var w => v == w
  | .const _ => false
  | .app _ as => occInL v as
/-- loop over the fields -/
def occInL (v : Nat) : List Term → Bool
  | [] => false
  | a :: as => occIn v a || occInL v as
end

/-- wr_order_eqterms, Reasoner/strat.c:911-1038: 1 `a` bigger, 2 `b` bigger, 3 neither. -/
def orderEq (wd : Const → Int) (a b : Term) : Nat :=
  match a, b with
  | .var _, .var _ => 3
  | .var v, .app _ bs => if occInL v bs then 2 else 3
  | .var _, .const _ => 3
  | .app _ as, .var w => if occInL w as then 1 else 3
  | .const _, .var _ => 3
  | .const _, .app _ _ => 2
  | .const c, .const d => if constSmaller wd c d then 2 else if constSmaller wd d c then 1 else 3
  | .app _ _, .const _ => 1
  | .app _ _, .app _ _ =>
    let x := weightVars a VL.empty
    let y := weightVars b VL.empty
    if x.1 > y.1 ∧ subList y.2 x.2 = true then 1
    else if y.1 > x.1 ∧ subList x.2 y.2 = true then 2
    else if x.1 = y.1 then
      let r := lexOrder wd a b
      if r = 2 ∧ subList y.2 x.2 = true then 1
      else if r = 1 ∧ subList x.2 y.2 = true then 2
      else 3
    else 3

end Gkc
