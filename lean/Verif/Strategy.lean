import Verif.Order
import Verif.Sem
/-
Which literals of a clause are resolved upon: wr_calc_clause_resolvability, Reasoner/strat.c:324-632, as it is
called for a given clause (rgenloop.c:415-421, `allowall` 0 and `hyperpartial` 0), with the strategy flags
knuthbendixpref_strat, negpref_strat, pospref_strat and hardnesspref_strat (guide.c:447-466).

g->hyperres_strat and g->queryfocus_strat are 0 (glb.c:219-222), the problem is without answer literals, and
wr_specialcomp_lit is false (g->use_comp_arithmetic is 0 or no comparison occurs).  EQ_PREFER, OCC_LEX_ORDER and
KB_WEIGHTS_ORDER are not defined (strat.c:52-60).  Variables in the clause are not bound.

Simplifications.  Variables are compared by number and not by word, as in Order.lean.  Logarithms are exact.  A missing variable list
(NULL) and an empty one are the same to wr_countedvarlist_is_subset (strat.c:1239-1247).
-/
namespace Gkc.Strategy
open Gkc Term

/-- strategy flags and what is known of constants -/
structure Par where
  /-- knuthbendixpref_strat -/
  kb : Bool
  /-- negpref_strat -/
  neg : Bool
  /-- pospref_strat -/
  pos : Bool
  /-- hardnesspref_strat -/
  hard : Bool
  /-- the number of a symbol, wg_decode_uri_id; `none` for constants that are not of the type WG_URITYPE -/
  uid : Const → Option Nat
  /-- the word of a constant -/
  wd : Const → Int
  /-- positive occurrences counted for a symbol (wg_decode_uri_count, upper part); 0 for constants that are no symbols -/
  pc : Const → Nat
  /-- negative occurrences counted for a symbol (lower part) -/
  nc : Const → Nat

/-! ### Knuth-Bendix order of atoms -/

/-- wr_order_atoms_const_lex_smaller, Reasoner/strat.c:1833-1903: symbols by number, other constants by word, where
the larger word is smaller -/
def constLess (q : Par) (x y : Const) : Bool :=
  match q.uid x, q.uid y with
  | some i, some j => decide (i < j)
  | _, _ => decide (q.wd x > q.wd y)

mutual
/-- wr_order_atoms_lex_order, Reasoner/strat.c:1776-1831: 0 equal, 1 `x` smaller, 2 `y` smaller, 3 not comparable -/
def lexAtoms (q : Par) : Term → Term → Nat
  | .var v, y => match y with
    | .var w => if v = w then 0 else 3
    | _ => 3
  | .const c, y => match y with
    | .var _ => 3
    | .const d => if q.wd c = q.wd d then 0 else if constLess q c d then 1 else 2
    | .app _ _ => 1
  | .app f as, y => match y with
    | .var _ => 3
    | .const _ => 2
    | .app g bs =>
      if as.length < bs.length then 1
      else if bs.length < as.length then 2
      else if q.wd f = q.wd g then lexAtomsL q as bs
      else if constLess q f g then 1 else 2
/-- the loop over the fields, strat.c:1821-1829 -/
def lexAtomsL (q : Par) : List Term → List Term → Nat
  | a :: as, b :: bs => match lexAtoms q a b with
    | 0 => lexAtomsL q as bs
    | r => r
  | _, _ => 0
end

mutual
/-- wr_order_atom_weight_vars, Reasoner/strat.c:1736-1762: every symbol and variable weighs 1 -/
def atomWeight : Term → VL → Nat × VL
  | .var v, l => (1, record v l)
  | .const _, l => (1, l)
  | .app _ as, l =>
    let r := atomWeightL as l
    (1 + r.1, r.2)
/-- the loop over the fields, strat.c:1758-1760 -/
def atomWeightL : List Term → VL → Nat × VL
  | [], l => (0, l)
  | a :: as, l =>
    let r := atomWeight a l
    let t := atomWeightL as r.2
    (r.1 + t.1, t.2)
end

/-- the comparison of two atoms, Reasoner/strat.c:1597-1620, with the weights and lists of
wr_calc_clause_size_countedvarlist (1649-1719): 1 `x` bigger, 2 `y` bigger, 3 neither -/
def cmpAtoms (q : Par) (x y : Term) : Nat :=
  let a := atomWeight x VL.empty
  let b := atomWeight y VL.empty
  if a.1 > b.1 ∧ subList b.2 a.2 = true then 1
  else if b.1 > a.1 ∧ subList a.2 b.2 = true then 2
  else if a.1 = b.1 then
    let r := lexAtoms q x y
    if r = 2 ∧ subList b.2 a.2 = true then 1
    else if r = 1 ∧ subList a.2 b.2 = true then 2
    else 3
  else 3

/-- store 0 at a place of g->tmp_resolvability_vec -/
def off (v : Nat → Bool) (i : Nat) : Nat → Bool := fun k => if k = i then false else v k

/-- the inner loop, Reasoner/strat.c:1537-1630 -/
def kbInner (cmp : Nat → Nat → Nat) (i : Nat) : List Nat → (Nat → Bool) → Nat → Bool
  | [], v => v
  | j :: js, v =>
    if !v j then kbInner cmp i js v
    else match cmp i j with
      | 1 => kbInner cmp i js (off v j)
      | 2 => kbInner cmp i js (off v i)
      | _ => kbInner cmp i js v

/-- the outer loop, Reasoner/strat.c:1527-1631, for the places `i`, `i + 1`, ... of `n` -/
def kbOuter (cmp : Nat → Nat → Nat) (n : Nat) : List Nat → (Nat → Bool) → Nat → Bool
  | [], v => v
  | i :: is, v => kbOuter cmp n is (kbInner cmp i ((List.range n).drop (i + 1)) v)

/-- an atom of a clause -/
def atomAt (C : List Lit) (i : Nat) : Term := match C[i]? with
  | some l => l.atom
  | none => .var 0

/-- wr_calc_clause_knuthbendix_resolvability, Reasoner/strat.c:1487-1640 -/
def kbSel (q : Par) (C : List Lit) (i : Nat) : Bool :=
  kbOuter (fun i j => cmpAtoms q (atomAt C i) (atomAt C j)) C.length (List.range C.length) (fun _ => true) i

/-! ### Hardness -/

/-- the whole part of the logarithm to the base 10, with enough rounds `k` -/
def log10 : Nat → Nat → Nat
  | 0, _ => 0
  | k + 1, n => if n < 10 then 0 else log10 k (n / 10) + 1

/-- `round(log10(n))`: the half is reached when `n * n` reaches an odd power of 10 -/
def roundLog (n : Nat) : Nat := (log10 (n * n) (n * n) + 1) / 2

/-- `round(log10(n)/4)` -/
def roundLog4 (n : Nat) : Nat := (log10 n n + 2) / 4

/-- atom_hardnesscalc (Reasoner/strat.h) without the fields that are not used; `seen` are the bound variables -/
structure HC where
  size : Nat
  seen : List Nat
  news : Nat
  ipos : Nat
  ineg : Nat

/-- positive occurrences, at most 30000, strat.c:843-844 -/
def cpos (q : Par) (c : Const) : Nat := min (q.pc c) 30000
/-- negative occurrences, at most 10000, strat.c:845-846 -/
def cneg (q : Par) (c : Const) : Nat := min (q.nc c) 10000

/-- a constant or function symbol inside the atom, strat.c:828-862 -/
def hardConst (q : Par) (c : Const) (h : HC) : HC :=
  { h with size := h.size + 1, ipos := h.ipos + cpos q c, ineg := h.ineg + cneg q c }

mutual
/-- wr_calc_atom_hardness_aux, Reasoner/strat.c:811-897, below the atom -/
def hardTerm (q : Par) : Term → HC → HC
  | .var v, h => if v ∈ h.seen then { h with size := h.size + 1 }
    else { h with size := h.size + 1, seen := v :: h.seen, news := h.news + 1 }
  | .const c, h => hardConst q c h
  | .app f as, h => hardTermL q as (hardConst q f h)
/-- the loop over the fields, strat.c:890-894 -/
def hardTermL (q : Par) : List Term → HC → HC
  | [], h => h
  | a :: as, h => hardTermL q as (hardTerm q a h)
end

/-- the end of wr_calc_atom_hardness, strat.c:778-797, with the occurrences of the opposite sign -/
def hardOf (x : Int) (outer inner : Nat) : Int :=
  let x := if outer = 0 then 100 * x else x - roundLog outer
  if inner = 0 then x else x - roundLog4 inner

/-- the predicate symbol and the arguments of an atom -/
def parts : Term → Const × List Term
  | .app p as => (p, as)
  | _ => (.sym "", [])

/-- wr_calc_atom_hardness, Reasoner/strat.c:719-809.  The predicate symbol is at depth 1 and place 0. -/
def hardness (q : Par) (l : Lit) : Int :=
  let h := hardTermL q (parts l.atom).2 ⟨1, [], 0, 0, 0⟩
  let x : Int := ((h.size : Int) - h.news) * 5
  if l.neg then hardOf x (cpos q (parts l.atom).1) h.ipos else hardOf x (cneg q (parts l.atom).1) h.ineg

/-- MIN_HARDNESS, Reasoner/strat.h:35 -/
def minHardness : Int := -100000000

/-- the maximal hardness of the literals in the list, strat.c:443-475 -/
def maxHardness (q : Par) (ls : List Lit) : Int := ls.foldl (fun m l => if hardness q l > m then hardness q l else m) minHardness

/-- The last loop, strat.c:493-629: of the literals that satisfy `ok` the first one with the hardness `mx` is
allowed, the others are not.  `flag` is allowedflag. -/
def pickFirst (q : Par) (ok : Lit → Bool) (mx : Int) : Bool → List Lit → List Bool
  | _, [] => []
  | flag, l :: ls =>
    if !ok l then false :: pickFirst q ok mx flag ls
    else if hardness q l < mx then false :: pickFirst q ok mx flag ls
    else if !flag then true :: pickFirst q ok mx true ls
    else false :: pickFirst q ok mx flag ls

/-! ### The choice -/

/-- wr_calc_clause_resolvability, Reasoner/strat.c:324-632: is literal `i` of the clause allowed -/
def resolvable (q : Par) (C : List Lit) (i : Nat) : Bool :=
  if C.length ≤ 1 then true
  else if q.kb then kbSel q C i
  else
    let negs := C.filter fun l => l.neg
    let poss := C.filter fun l => !l.neg
    if negs.isEmpty && q.neg then kbSel q C i
    else if poss.isEmpty && q.pos then kbSel q C i
    else if q.neg then ((pickFirst q (fun l => l.neg) (maxHardness q negs) false C)[i]?).getD false
    else if q.pos then ((pickFirst q (fun l => !l.neg) (maxHardness q poss) false C)[i]?).getD false
    else if q.hard then ((pickFirst q (fun _ => true) (maxHardness q C) false C)[i]?).getD false
    else true

end Gkc.Strategy
