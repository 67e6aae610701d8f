import Verif.Clausify
/-
The second half of the clausifier, Parser/dbclausify.c: distribution with definitions, flattening,
and the whole of wr_clausify_formula.  As in Clausify.lean, `none` stands for a warning (the input is
rejected) and memory is unlimited.
-/
namespace Gkc.Clausify

/-! ### Distribution -/

/-- names of new predicates: DEFAULT_NEWPRED_PREFIX, Parser/dbclausify.c:1157-1159 -/
def dfName (n : Nat) : Nm := uri ("$df" ++ toString n)

mutual
/-- wr_clausify_collect_vars on terms, Parser/dbclausify.c:1242-1284: `acc` are the variables found so
far, last first.  Variables are compared as pool addresses; each new variable is one pool atom
(Parser/dbclausify.c:756), so this is equality of names. -/
def collT (acc : List Nm) : FT → List Nm
  | .nm n => if n.ty = 14 then (if n ∈ acc then acc else n :: acc) else acc
  | .app f as => collTL (if f.ty = 14 then (if f ∈ acc then acc else f :: acc) else acc) as
/-- the loop over members -/
def collTL (acc : List Nm) : List FT → List Nm
  | [] => acc
  | a :: as => collTL (collT acc a) as
end

mutual
/-- wr_clausify_collect_vars on formulas, Parser/dbclausify.c:1242-1284 (connectives are no variables);
only quantifier-free formulas come here -/
def coll (acc : List Nm) : Frm → List Nm
  | .at t => collT acc t
  | .neg f => coll acc f
  | .par f => coll acc f
  | .all _ f => coll acc f
  | .ex _ f => coll acc f
  | .eqv a b => coll (coll acc a) b
  | .and fs => collL acc fs
  | .or fs => collL acc fs
  | .imp fs => collL acc fs
/-- the loop over arguments -/
def collL (acc : List Nm) : List Frm → List Nm
  | [] => acc
  | f :: fs => collL (coll acc f) fs
end

/-- the state of distribution: the collected definitions, and the number of new predicates in the
database header (parse_newpred_nr) -/
structure DSt where
  defs : Option Frm
  nr : Nat

/-- the atom that stands for a formula, Parser/dbclausify.c:1156-1175; more than 999 variables are
refused (Parser/dbclausify.c:1164, 1262-1265) -/
def defAtom (nr : Nat) (f : Frm) : Option FT :=
  let vs := coll [] f
  if 999 < vs.length then none
  else some (if vs.isEmpty then .nm (dfName nr) else .app (dfName nr) (vs.map .nm))

/-- adding to the definitions, Parser/dbclausify.c:1218-1224 -/
def addDef (d : Option Frm) (g : Frm) : Frm :=
  match d with
  | none => g
  | some d => .and [d, g]

/-- wr_clausify_makedef, Parser/dbclausify.c:1137-1240; `D` is wr_clausify_distribute inside a
definition -/
def makedef (D : Frm → DSt → Option (Frm × DSt)) (f : Frm) (s : DSt) : Option (Frm × DSt) :=
  (defAtom (s.nr + 1) f).bind fun d =>
  (D (.or [.neg (.at d), f]) ⟨s.defs, s.nr + 1⟩).bind fun (r1, s) =>
  (negpush false f).bind fun nf =>
  (D (.or [.at d, nf]) s).map fun (r2, s) =>
    (.at d, ⟨some (addDef s.defs (.and [r1, r2])), s.nr⟩)

/-- wr_clausify_dist_complexity, Parser/dbclausify.c:1080-1135 -/
def complexity : Frm → Nat
  | .par f => complexity f
  | .and [a, b] => 1 + complexity a + complexity b
  | .or [a, b] => 1 + complexity a + complexity b
  | _ => 0

/-- the two arguments, if the formula is an and, Parser/dbclausify.c:915-922, 935-936 -/
def andArgs : Frm → Option (Frm × Frm)
  | .and (a :: b :: _) => some (a, b)
  | _ => none

/-- wr_clausify_distribute, Parser/dbclausify.c:852-1065.  `strat` is parse_newpred_strat, `indef` says
that a definition is being made.  The first argument bounds the depth of recursion; see
C29_distribution_ends. -/
def dist (strat : Bool) : Nat → Bool → Frm → DSt → Option (Frm × DSt)
  | 0, _, _, _ => none
  | _ + 1, _, .at t, s => some (.at t, s)
  | _ + 1, _, .neg f, s => some (.neg f, s)
  | n + 1, indef, .par f, s => dist strat n indef f s
  | n + 1, indef, .and [a, b], s =>
    (dist strat n indef a s).bind fun (a, s) => (dist strat n indef b s).map fun (b, s) => (.and [a, b], s)
  | n + 1, indef, .or [a, b], s =>
    (dist strat n indef a s).bind fun (r1, s) => (dist strat n indef b s).bind fun (r2, s) =>
    match andArgs r1, andArgs r2 with
    | none, none => some (.or [r1, r2], s)
    | some (a1, a2), none =>
      (dist strat n indef (.or [a1, r2]) s).bind fun (r3, s) =>
      (dist strat n indef (.or [a2, r2]) s).map fun (r4, s) => (.and [r3, r4], s)
    | none, some (a1, a2) =>
      (dist strat n indef (.or [a2, r1]) s).bind fun (r3, s) =>
      (dist strat n indef (.or [a1, r1]) s).map fun (r4, s) => (.and [r3, r4], s)
    | some (a1, a2), some (a3, a4) =>
      if strat && (indef || decide (10 ≤ complexity a1 + complexity a2 + complexity a3 + complexity a4)) then
        (makedef (dist strat n true) r1 s).bind fun (d1, s) =>
        (makedef (dist strat n true) r2 s).map fun (d2, s) => (.or [d1, d2], s)
      else
        (dist strat n indef (.or [a1, a3]) s).bind fun (r3, s) =>
        (dist strat n indef (.or [a1, a4]) s).bind fun (r4, s) =>
        (dist strat n indef (.or [a2, a3]) s).bind fun (r5, s) =>
        (dist strat n indef (.or [a2, a4]) s).map fun (r6, s) =>
          (.and [r3, .and [r4, .and [r5, r6]]], s)
  | _ + 1, _, _, _ => none

/-- the result with its definitions, Parser/dbclausify.c:186-190 -/
def withDefs (g : Frm) (s : DSt) : Frm :=
  match s.defs with
  | none => g
  | some d => .and [g, d]

/-! ### Flattening -/

/-- a flat clause: the constant true (an atom, not a list), or literals -/
inductive FCl where
  | tru
  | lits (ls : List Frm)
deriving Repr

/-- wr_is_logconst, Parser/dbclausify.c:1592-1615.  The second string of a URI is not looked at: a
quoted name (type numbers 107, ...) counts too. -/
def logconst (n : Nm) : Int :=
  if n.ty % 100 = 7 then (if n.str = "$true" then 1 else if n.str = "$false" then -1 else 0) else 0

/-- wr_is_logtruth, Parser/dbclausify.c:1552-1588 -/
def truthOf : Frm → Int
  | .at (.nm n) => logconst n
  | .neg (.at (.nm n)) => - logconst n
  | _ => 0

/-- wr_flatten_logclause_or, Parser/dbclausify.c:1477-1548 -/
def flatOr : Frm → Option FCl
  | .par f => flatOr f
  | .or (a :: b :: _) =>
    if truthOf a = 0 ∧ truthOf b = 0 then
      (flatOr a).bind fun ra => (flatOr b).map fun rb =>
        match ra, rb with
        | .tru, _ => .tru
        | _, .tru => .tru
        | .lits la, .lits lb => .lits (la ++ lb)
    else if truthOf a = 1 ∨ truthOf b = 1 then some .tru
    else if truthOf a = -1 then flatOr b
    else flatOr a
  | .or _ => none
  | f => some (.lits [f])

/-- wr_flatten_logclause, Parser/dbclausify.c:1404-1461 -/
def flat : Frm → Option (List FCl)
  | .par f => flat f
  | .and (a :: b :: _) => (flat a).bind fun ra => (flat b).map fun rb => ra ++ rb
  | .and _ => none
  | f => (flatOr f).map ([·])

end Gkc.Clausify
