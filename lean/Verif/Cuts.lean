import Verif.Derive
import Verif.StrongDup
/-
Cutting literals off clauses with known unit and two-literal clauses: Reasoner/subsume.c
wr_derived_cl_cut_and_subsume, wr_atom_cut_and_subsume, wr_derived_cl_strong_cut,
strongly_cut_atom, wr_atom_doublecut, and Reasoner/simp.c wr_simplify_cl,
wr_simplify_doublecut_cl.

Simplifications: the hash tables of unit clauses are lists searched with the term equality
(TermHash.lean has the tables); the bucket of two-literal clauses and the candidates of the
prefix index are parameters; buffers do not run out; histories are left out.
-/
namespace Gkc
open Term

/-- the known unit clauses of each sign (`true` = negative): `hash_neg_groundunits`,
`hash_pos_groundunits` of the local memory and of the attached knowledge base (empty when there
is none).  Despite the name the tables hold non-ground units too (derive.c:1878-1950). -/
structure Units where
  loc : Bool → List Term
  kb : Bool → List Term

/-- wr_find_termhash: a stored term equal to the key -/
def known (us : List Term) (t : Term) : Bool := us.any (fun u => eqTerm u t)

/-- wr_derived_cl_cut_and_subsume, Reasoner/subsume.c:536-745, called with a null `clhashptr`
(derive.c:174).  `none` is the answer -1 (subsumed); the flag marks cut literals (meta set to
0).  `fwd` is `forward_subsume_derived`. -/
def cutSubsume (fwd : Bool) (us : Units) : List Lit → Option (List (Lit × Bool))
  | [] => some []
  | l :: ls =>
    if fwd && known (us.loc l.neg) l.atom then none
    else if fwd && known (us.kb l.neg) l.atom then none
    else
      let c := known (us.loc (!l.neg)) l.atom || known (us.kb (!l.neg)) l.atom
      match cutSubsume fwd us ls with
      | none => none
      | some rs => some ((l, c) :: rs)

/-- wr_process_resolve_result_remove_cuts, Reasoner/derive.c:1647-1670 -/
def removeCuts (fl : List (Lit × Bool)) : List Lit := (fl.filter (fun p => !p.2)).map (·.1)

/-- wr_term_has_vars, Reasoner/clmeta.c:329-347 -/
def hasVars (t : Term) : Bool := !(vars t).isEmpty

/-- strongly_cut_atom, Reasoner/subsume.c:1213-1361: the candidates are tried in turn, `um` is
`usematch`; the binding stack is cleared after every attempt, but not before the first, so the
first attempt sees the bindings of the inference that built the clause.  `none`: undefined
behaviour of matching, or fuel. -/
def strongCutAtom (n : Nat) (um : Bool) (x : Term) : St → List Term → Option (Bool × St)
  | st, [] => some (false, st)
  | st, y :: ys =>
    if um then match matchT st y x with
      | .ub => none
      | .ok s => some (true, s.clear)
      | .fail s => strongCutAtom n um x s.clear ys
    else match unify n st x y with
      | none => none
      | some (true, s) => some (true, s.clear)
      | some (false, s) => strongCutAtom n um x s.clear ys

/-- the loop of wr_derived_cl_strong_cut, Reasoner/subsume.c:1156-1204.  `cands s x` are the
unit atoms of sign `s` that the index offers for `x`. -/
def strongCutLoop (n : Nat) (um : Bool) (cands : Bool → Term → List Term) :
    St → List (Lit × Bool) → Option (List (Lit × Bool) × St)
  | st, [] => some ([], st)
  | st, (l, c) :: ls =>
    if c then match strongCutLoop n um cands st ls with
      | none => none
      | some (rs, s) => some ((l, c) :: rs, s)
    else match strongCutAtom n um l.atom st (cands (!l.neg) l.atom) with
      | none => none
      | some (b, s) => match strongCutLoop n um cands s ls with
        | none => none
        | some (rs, s') => some ((l, b) :: rs, s')

/-- wr_derived_cl_strong_cut, Reasoner/subsume.c:1104-1211.  Matching instead of unification is
used when more than one uncut literal has variables. -/
def strongCut (n : Nat) (cands : Bool → Term → List Term) (st : St) (fl : List (Lit × Bool)) :
    Option (List (Lit × Bool) × St) :=
  let unc := fl.filter (fun p => !p.2)
  let ng := if unc.length > 1 then unc.countP (fun p => hasVars p.1.atom) else 0
  strongCutLoop n (decide (ng > 1)) cands st fl

/-- state of the double loop of wr_atom_doublecut_aux -/
structure DSt where
  posm : Bool
  negm : Bool
  iu : Option Nat
  ju : Option Nat
  /-- returned 1 -/
  done : Bool

/-- one round of wr_atom_doublecut_aux, Reasoner/subsume.c:1034-1088.  `m` is the masked
summary compared before the atoms. -/
def dcStep (m : Term → Nat) (x : ALit) (i : Nat) (y : Lit) (j : Nat) (xl : ALit) (s : DSt) : DSt :=
  if s.done then s
  else if x.addr ≠ xl.addr ∧ y.neg = xl.neg then
    if s.ju ≠ some j ∧ s.iu ≠ some i ∧ m y.atom = m xl.atom ∧ eqTerm y.atom xl.atom = true then
      { s with posm := true, iu := some i, ju := some j, done := s.negm }
    else s
  else if x.addr = xl.addr ∧ x.neg = xl.neg ∧ s.ju ≠ some j ∧ s.iu ≠ some i ∧ y.neg ≠ xl.neg ∧
      m y.atom = m xl.atom ∧ eqTerm y.atom xl.atom = true then
    { s with negm := true, iu := some i, ju := some j, done := s.posm }
  else s

/-- the loop over the clause being cut, Reasoner/subsume.c:1034-1089 -/
def dcInner (m : Term → Nat) (x : ALit) (i : Nat) (y : Lit) : Nat → List ALit → DSt → DSt
  | _, [], s => s
  | j, xl :: xls, s => dcInner m x i y (j + 1) xls (dcStep m x i y j xl s)

/-- wr_atom_doublecut_aux, Reasoner/subsume.c:1010-1093, for a two-literal clause -/
def dcAux (m : Term → Nat) (x : ALit) (xcl : List ALit) (y0 y1 : Lit) : Bool :=
  (dcInner m x 1 y1 0 xcl (dcInner m x 0 y0 0 xcl ⟨false, false, none, none, false⟩)).done

/-- wr_atom_doublecut, Reasoner/subsume.c:905-1008: `bucket` are the two-literal clauses stored
under the hash of the atom with the opposite sign -/
def doubleCut (m : Term → Nat) (bucket : Bool → Term → List (Lit × Lit)) (x : ALit) (xcl : List ALit) : Bool :=
  (bucket (!x.neg) x.atom).any (fun y => dcAux m x xcl y.1 y.2)

/-- loop of wr_simplify_doublecut_cl, Reasoner/simp.c:433-474: at most one literal is cut -/
def doubleLoop (m : Term → Nat) (bucket : Bool → Term → List (Lit × Lit)) (xcl : List ALit) :
    Bool → List ALit → List ALit
  | _, [] => []
  | found, x :: xs =>
    if !found && doubleCut m bucket x xcl then doubleLoop m bucket xcl true xs
    else x :: doubleLoop m bucket xcl found xs

/-- wr_simplify_doublecut_cl, Reasoner/simp.c:383-553.  The copy with renamed variables made at
the end (simp.c:497-503) is left out, see Build.lean. -/
def doubleCutCl (m : Term → Nat) (bucket : Bool → Term → List (Lit × Lit)) (xcl : List ALit) : List ALit :=
  if xcl.length < 2 then xcl else doubleLoop m bucket xcl false xcl

/-- wr_atom_cut_and_subsume, Reasoner/subsume.c:775-893: answers -1, 0, 1 -/
def atomCut (us : Units) (neg : Bool) (a : Term) (subs : Bool) : Int :=
  if subs && known (us.loc neg) a then -1
  else if subs && known (us.kb neg) a then -1
  else if known (us.loc (!neg)) a then 1
  else if known (us.kb (!neg)) a then 1
  else 0

/-- outcome of simplifying a clause -/
inductive SRes
  | fuel
  /-- NULL: WG_ILLEGAL while building -/
  | illegal
  /-- NULL: a literal is true, or subsumed -/
  | drop
  /-- unchanged -/
  | same
  /-- the new literals; none: `proof_found` -/
  | ok (cl : List Lit)

/-- Loop of wr_simplify_cl over the literals, Reasoner/simp.c:177-306.  `rw` rewrites and
computes an atom, giving the new atom with its address and telling whether rewrites were done;
`chg` collects `cuts || calccuts || rewritten_atoms`, `rs` the literals stored so far. -/
def simpLoop (rw : ALit → Out (ALit × Bool)) (us : Units) (m : Term → Nat)
    (bucket : Bool → Term → List (Lit × Lit)) (xcl : List ALit) :
    (found chg : Bool) → List Lit → List ALit → SRes
  | _, chg, rs, [] => if chg then .ok rs else .same
  | found, chg, rs, x :: xs => match rw x with
    | .fuel => .fuel
    | .illegal => .illegal
    | .ok (y, w) =>
      if y.atom.beq (.const aTrue) then
        (if x.neg then simpLoop rw us m bucket xcl found true rs xs else .drop)
      else if y.atom.beq (.const aFalse) then
        (if x.neg then .drop else simpLoop rw us m bucket xcl found true rs xs)
      else
        let t := atomCut us x.neg y.atom (!(decide (xcl.length < 2) && !w))
        if t < 0 then .drop
        else if t = 1 then simpLoop rw us m bucket xcl found true rs xs
        else if !found && decide (xcl.length > 1) && doubleCut m bucket ⟨y.addr, x.neg, y.atom⟩ xcl then
          simpLoop rw us m bucket xcl true true rs xs
        else simpLoop rw us m bucket xcl found (chg || w) (rs ++ [⟨x.neg, y.atom⟩]) xs

/-- wr_simplify_cl, Reasoner/simp.c:58-381, for a rule clause.  The copy with renamed variables
made at the end (simp.c:340-347) is left out, see Build.lean. -/
def simplifyCl (rw : ALit → Out (ALit × Bool)) (us : Units) (m : Term → Nat)
    (bucket : Bool → Term → List (Lit × Lit)) (xcl : List ALit) : SRes :=
  simpLoop rw us m bucket xcl false false [] xcl

/-- wr_simplify_cl for a fact, Reasoner/simp.c:88-144: a fact is a positive unit -/
def simplifyFact (rw : ALit → Out (ALit × Bool)) (x : ALit) : SRes :=
  match rw x with
  | .fuel => .fuel
  | .illegal => .illegal
  | .ok (y, w) =>
    if y.atom.beq (.const aTrue) then .drop
    else if y.atom.beq (.const aFalse) then .ok []
    else if w then .ok [⟨false, y.atom⟩]
    else .same

/-- outcome of finishing a derived clause -/
inductive Fin
  | fuel
  /-- undefined behaviour -/
  | ub
  | subsumed
  /-- the clause that is stored; none: `proof_found` -/
  | ok (cl : List Lit)

/-- From the collected literals to the stored clause: wr_process_resolve_result,
Reasoner/derive.c:174-309 (the same in the factor and paramodulation functions, 707-800,
980-1080).  `strong` and `sdup` are `use_strong_unit_cutoff` and `use_strong_duplicates`; `tag`
gives the addresses the atoms get when the clause is stored. -/
def finish (fwd strong sdup : Bool) (us : Units) (n : Nat) (cands : Bool → Term → List Term)
    (m : Term → Nat) (bucket : Bool → Term → List (Lit × Lit)) (tag : List Lit → List ALit)
    (st : St) (rs : List Lit) : Fin :=
  if rs.isEmpty then .ok []
  else match cutSubsume fwd us rs with
    | none => .subsumed
    | some fl => match (if strong then (strongCut n cands st fl).map (·.1) else some fl) with
      | none => .fuel
      | some fl' =>
        let ls := removeCuts fl'
        if ls.isEmpty then .ok []
        else match (if ls.length > 1 && sdup then strongDup ls else some ls) with
          | none => .ub
          | some ls' => .ok ((doubleCutCl m bucket (tag ls')).map ALit.lit)

end Gkc
