import Verif.Meta
import Verif.Unify
/-
Clause-to-clause subsumption: Reasoner/subsume.c:1403-1690.
`instgen_strat` is off (its default, Reasoner/glb.c:241); statistics counters are left out.
-/
namespace Gkc

/-- A stored clause (Reasoner/clterm.h): a fact clause is a positive atom without a literal
summary, a rule clause a sequence of literals with summaries. -/
inductive SClause
  | fact (atom : Term)
  | rule (lits : List SLit)

/-- wr_answer_lit, Reasoner/build.c:766-780: the predicate is `$ans` without prefix. -/
def isAns : Term → Bool
  | .app f _ => f == .sym "$ans"
  | _ => false

/-- The loop over the literals of the specific clause in wr_subsume_cl_aux,
Reasoner/subsume.c:1594-1686.  `ans` is `required_answer_nr==1` (ANS_IGNORE is defined at
subsume.c:54), `last` is `i1+1>=cllen1`, `k` the recursive call for the next literal of the
general clause, `used` is `tmp_litinf_vec`.  The result is the answer and the binding state;
`none`: undefined behaviour in matching.  Every call resets the flags it set before returning
0, so `used` is passed down only. -/
def tryLits (ans : Bool) (l1 : SLit) (last : Bool) (k : (Nat → Bool) → St → Option (Bool × St)) :
    List SLit → Nat → (Nat → Bool) → St → Option (Bool × St)
  | [], _, _, st => some (false, st)
  | l2 :: rest, i2, used, st =>
    if used i2 then tryLits ans l1 last k rest (i2 + 1) used st
    else
      let a1 := ans && isAns l1.atom
      let a2 := ans && isAns l2.atom
      if sortBigger l1.word l2.word && !a1 && !a2 then some (false, st)
      else if !negPol l1.word l2.word && ((a1 && a2) || matchable l1.word l2.word) then
        let vc := st.trail.length
        match (if a1 && a2 then .ok st else matchT st l1.atom l2.atom : MRes) with
        | .ub => none
        | .fail st' => tryLits ans l1 last k rest (i2 + 1) used (st'.clearTo vc)
        | .ok st' =>
          if last then some (true, st')
          else match k (fun i => i == i2 || used i) st' with
            | none => none
            | some (true, st2) => some (true, st2)
            | some (false, st2) =>
              if vc == st'.trail.length then some (false, st2.clearTo vc)  -- nobackflag
              else tryLits ans l1 last k rest (i2 + 1) used (st2.clearTo vc)
      else tryLits ans l1 last k rest (i2 + 1) used st

/-- wr_subsume_cl_aux, Reasoner/subsume.c:1557-1693: the argument is the rest of the general
clause.  Called on no literals it prints an error and returns 0. -/
def subsAux (ans : Bool) (sl : List SLit) : List SLit → (Nat → Bool) → St → Option (Bool × St)
  | [], _, st => some (false, st)
  | l1 :: gl, used, st => tryLits ans l1 gl.isEmpty (subsAux ans sl gl) sl 0 used st

/-- the unit rule clause loop of wr_subsume_cl, Reasoner/subsume.c:1484-1509 -/
def unitLoop (l1 : SLit) : List SLit → Option Bool
  | [] => some false
  | l2 :: rest =>
    if sortBigger l1.word l2.word then some false
    else if !negPol l1.word l2.word && matchable l1.word l2.word then
      match matchT St.empty l1.atom l2.atom with
      | .ub => none
      | .ok _ => some true
      | .fail _ => unitLoop l1 rest
    else unitLoop l1 rest

/-- fact clause against a rule clause, Reasoner/subsume.c:1434-1446 -/
def factLoop (a : Term) : List SLit → Bool
  | [] => false
  | l2 :: rest =>
    if !isGroundW l2.word then false
    else if !isNegW l2.word && eqTerm a l2.atom then true
    else factLoop a rest

/-- wr_subsume_cl, Reasoner/subsume.c:1403-1530, called with an empty binding stack, as all
callers do; it leaves it empty. -/
def subsumeCl (ans : Bool) : SClause → SClause → Option Bool
  | .fact a, .fact b => some (eqTerm a b)
  | .fact a, .rule sl => some (factLoop a sl)
  | .rule gl, .fact b =>
    if gl.length > 1 then some false
    else match gl with
      | [] => none      -- reads a literal that does not exist
      | l1 :: _ =>
        if isNegW l1.word then some false
        else match matchT St.empty l1.atom b with
          | .ub => none
          | .ok _ => some true
          | .fail _ => some false
  | .rule gl, .rule sl =>
    if gl.length == 1 then
      match gl with
      | [] => none
      | l1 :: _ => unitLoop l1 sl
    else if gl.length > sl.length then some false
    else (subsAux ans sl gl (fun _ => false) St.empty).map Prod.fst

end Gkc
