import Verif.Index
import Verif.Derive
/-
The term indexes for paramodulation: Reasoner/clstore.c:505-783 and the lookups in
Reasoner/resolve.c:640-700 and 1037-1100.

The two hash vectors g->hash_para_terms and g->hash_eq_terms are the two signs of `Ix` (`true`
and `false`).  Modelled strategy: hyperres_strat, posunitpara_strat, rewrite_only_strat,
prohibit_unordered_para and prohibit_deep_para off.
-/
namespace Gkc.Index

/-- the function symbol or constant whose hash is the bucket number, Reasoner/clstore.c:622-628,
728-763; `none` for variables -/
def head : Term → Option Const
  | .var _ => none
  | .const c => some c
  | .app f _ => some f

/-- storing terms with their encoded positions, Reasoner/clstore.c:763-772 and 628-634 -/
def addTerms (h : Const → BitVec 64) (cap : Nat) (sg : Bool) (cl : Nat) : Ix → List (Term × Nat) → Option Ix
  | ix, [] => some ix
  | ix, (t, path) :: ts => match head t with
    | none => addTerms h cap sg cl ix ts
    | some c => (add cap ix sg (h c).toNat t cl path).bind fun ix => addTerms h cap sg cl ix ts

/-- the sides of a positive equation stored for paramodulation into later clauses,
Reasoner/clstore.c:563-593; `ord` is wr_order_eqterms -/
def eqSides (ord : Term → Term → Nat) (qf : Bool) (i : Nat) (l : Lit) : List (Term × Nat) :=
  if l.neg then []
  else match eqArgs l.atom with
    | none => []
    | some (a, b) =>
      let o := if qf then 3 else ord a b
      (if (o = 1 ∨ o = 3) ∧ head a ≠ none then [(a, encPath i 1)] else []) ++
      (if (o = 2 ∨ o = 3) ∧ head b ≠ none then [(b, encPath i 0)] else [])

/-- wr_cl_store_para_terms, Reasoner/clstore.c:516-606, from literal number `i` on -/
def storePara (h : Const → BitVec 64) (cap : Nat) (ord : Term → Term → Nat) (qf : Bool) (cl : Nat) :
    Nat → Ix → List (Bool × Lit) → Option Ix
  | _, ix, [] => some ix
  | i, ix, (res, l) :: ls =>
    if !res && !qf then storePara h cap ord qf cl (i + 1) ix ls
    else
      (addTerms h cap true cl ix ((paraTargets i l.atom).map fun q => (q.1, encPath i q.2))).bind fun ix =>
      (addTerms h cap false cl ix (eqSides ord qf i l)).bind fun ix =>
      storePara h cap ord qf cl (i + 1) ix ls

/-- candidates for a term that is not a variable: into (`true`) for a side of an equation of the
given clause, Reasoner/resolve.c:646-700; from (`false`) for a subterm of the given clause,
resolve.c:1040-1100 -/
def lookupTerm (h : Const → BitVec 64) (ix : Ix) (sg : Bool) (t : Term) : Option (List (Term × Nat × Nat)) :=
  match head t with
  | none => some []
  | some c => bucket ix sg (some (h c).toNat)

end Gkc.Index
