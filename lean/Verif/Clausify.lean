import Verif.Frm
/-
The clausifier, Parser/dbclausify.c.  The result `none` stands for a warning (the formula is
rejected).  Memory is unlimited.
-/
namespace Gkc.Clausify

/-! ### Negation push -/

/-- or/and by sign -/
def junct (b : Bool) (fs : List Frm) : Frm := if b then .and fs else .or fs
/-- quantifier by sign -/
def quant (b : Bool) (vs : List Nm) (f : Frm) : Frm := if b then .all vs f else .ex vs f

mutual
/-- wr_clausify_negpush, Parser/dbclausify.c:205-344; `sign` false asks for the negation -/
def negpush (sign : Bool) : Frm → Option Frm
  | .at t => some (if sign then .at t else .neg (.at t))
  | .par f => negpush sign f
  | .neg f =>
    match f with
    | .at t => some (if sign then .neg (.at t) else .at t)
    | f => negpush (!sign) f
  | .and fs =>
    if fs.length < 2 then none
    else (negpushL sign fs).map fun gs => junct sign gs.reverse
  | .or fs =>
    if fs.length < 2 then none
    else (negpushL sign fs).map fun gs => junct (!sign) gs.reverse
  | .imp fs =>
    if fs.length < 2 then none
    else (negpushI sign fs).map fun gs => junct (!sign) gs.reverse
  | .all vs f => (negpush sign f).map fun g => quant sign vs g
  | .ex vs f => (negpush sign f).map fun g => quant (!sign) vs g
  | .eqv a b =>
    (negpush (!sign) a).bind fun r1 => (negpush sign b).bind fun r2 =>
    (negpush sign a).bind fun r3 => (negpush (!sign) b).map fun r4 =>
      junct sign [junct (!sign) [r1, r2], junct (!sign) [r3, r4]]
/-- the loop over the arguments of and/or, Parser/dbclausify.c:254-259 (in order; the code builds
the reversed list) -/
def negpushL (sign : Bool) : List Frm → Option (List Frm)
  | [] => some []
  | f :: fs => (negpush sign f).bind fun g => (negpushL sign fs).map (g :: ·)
/-- the loop over the arguments of an implication, Parser/dbclausify.c:268-281 -/
def negpushI (sign : Bool) : List Frm → Option (List Frm)
  | [] => some []
  | f :: fs =>
    match fs with
    | [] => (negpush sign f).map ([·])
    | _ :: _ => (negpush (!sign) f).bind fun g => (negpushI sign fs).map (g :: ·)
end

/-! ### Miniscope -/

/-- wr_freeoccs_invars, Parser/dbclausify.c:547-563: names are compared as strings only -/
def inVars (vs : List Nm) (n : Nm) : Bool := vs.any fun v => v.str == n.str

/-- wr_miniscope_varssubset, Parser/dbclausify.c:565-602 -/
def varsSubset (vs bound : List Nm) : List Nm :=
  if vs.any (inVars bound) then
    if vs.length = 1 then [] else (vs.filter fun v => !inVars bound v).reverse
  else vs

/-- wr_add_freeoccs, Parser/dbclausify.c:604-630 -/
def addOccs (vs occs : List Nm) : List Nm :=
  if occs.isEmpty then vs else if vs.isEmpty then occs
  else occs.foldl (fun r v => if inVars vs v then r else v :: r) vs

mutual
/-- wr_miniscope_freeoccs on terms, Parser/dbclausify.c:497-545: the head counts too -/
def occT (vs : List Nm) : FT → List Nm
  | .nm n => if inVars vs n then [n] else []
  | .app f as => occTL vs (if inVars vs f then [f] else []) as
/-- the loop over the members of a term; `acc` are the variables found so far -/
def occTL (vs : List Nm) (acc : List Nm) : List FT → List Nm
  | [] => acc
  | a :: as => occTL vs (addOccs acc (occT vs a)) as
end

mutual
/-- wr_miniscope_freeoccs on formulas, Parser/dbclausify.c:497-545 -/
def occ (vs : List Nm) : Frm → List Nm
  | .at t => occT vs t
  | .neg f => occ vs f
  | .par f => occ vs f
  | .all us f => occ (varsSubset vs us) f
  | .ex us f => occ (varsSubset vs us) f
  | .eqv a b => addOccs (occ vs a) (occ vs b)
  | .and fs => occL vs [] fs
  | .or fs => occL vs [] fs
  | .imp fs => occL vs [] fs
/-- the loop over the arguments of a connective -/
def occL (vs : List Nm) (acc : List Nm) : List Frm → List Nm
  | [] => acc
  | f :: fs => occL vs (addOccs acc (occ vs f)) fs
end

/-- the quantifier with a list of variables, or nothing if the list is empty -/
def quantNe (q : Bool) (vs : List Nm) (f : Frm) : Frm := if vs.isEmpty then f else quant q vs f

/-- the distribution of a quantifier over and (`c` true) or or, Parser/dbclausify.c:456-483;
`rest` are further arguments, which only the last case keeps -/
def pushJ (q c : Bool) (vs : List Nm) (a b : Frm) (rest : List Frm) : Frm :=
  let v1 := occ vs a
  let v2 := occ vs b
  if v1.isEmpty && v2.isEmpty then junct c (a :: b :: rest)
  else if v1.isEmpty then junct c [a, quant q v2 b]
  else if v2.isEmpty then junct c [quant q v1 a, b]
  else if q == c then junct c [quant q v1 a, quant q v2 b]
  else quantNe q (addOccs v1 v2) (junct c (a :: b :: rest))

/-- the quantifier case of wr_clausify_miniscope, Parser/dbclausify.c:440-492, for an already
processed body; a missing argument is not an input of the code -/
def pushQ (q : Bool) (vs : List Nm) (f : Frm) : Option Frm :=
  match f with
  | .at (.nm n) => some (.at (.nm n))
  | .and (a :: b :: rest) => some (pushJ q true vs a b rest)
  | .or (a :: b :: rest) => some (pushJ q false vs a b rest)
  | .and _ => none
  | .or _ => none
  | f => some (quantNe q (occ vs f) f)

/-- wr_clausify_miniscope, Parser/dbclausify.c:405-495; connectives with more than two arguments are
returned as they are -/
def mini : Frm → Option Frm
  | .at t => some (.at t)
  | .neg f => some (.neg f)
  | .par f => mini f
  | .all vs f => (mini f).bind (pushQ true vs)
  | .ex vs f => (mini f).bind (pushQ false vs)
  | .and [a, b] => (mini a).bind fun a => (mini b).map fun b => .and [a, b]
  | .or [a, b] => (mini a).bind fun a => (mini b).map fun b => .or [a, b]
  | .imp [a, b] => (mini a).bind fun a => (mini b).map fun b => .imp [a, b]
  | .eqv a b => (mini a).bind fun a => (mini b).map fun b => .eqv a b
  | .and fs => some (.and fs)
  | .or fs => some (.or fs)
  | .imp fs => some (.imp fs)

/-! ### Skolemisation -/

/-- values for bound variables, latest first -/
abbrev Assoc := List (Nm × FT)

/-- the lookup in wr_clausify_replace_vars, Parser/dbclausify.c:812-826: only URIs (without a second
string) and variables are looked up -/
def look (A : Assoc) (n : Nm) : Option FT :=
  if n.ty = 7 ∨ n.ty = 14 then (A.find? fun p => p.1 = n).map (·.2) else none

mutual
/-- wr_clausify_replace_vars, Parser/dbclausify.c:787-829, for a list member; a head is looked up
too, and `none` says that a compound value would come into head position -/
def repl (A : Assoc) : FT → Option FT
  | .nm n => some ((look A n).getD (.nm n))
  | .app f as =>
    match look A f with
    | none => (replL A as).map (.app f)
    | some (.nm m) => (replL A as).map (.app m)
    | some (.app _ _) => none
/-- the loop over members -/
def replL (A : Assoc) : List FT → Option (List FT)
  | [] => some []
  | a :: as => (repl A a).bind fun a => (replL A as).map (a :: ·)
end

/-- names of new variables: NEWVAR_PREFIX, Parser/dbclausify.c:755-756.  The 19 bytes of the buffer
are enough for an `int`. -/
def newVar (n : Nat) : Nm := varN ("X" ++ toString n)
/-- names of Skolem functions: DEFAULT_SKOLEM_PREFIX, Parser/dbclausify.c:763-765 -/
def skName (n : Nat) : Nm := uri ("$sk" ++ toString n)

/-- may be quantified, Parser/dbclausify.c:745-750 -/
def okVar (n : Nm) : Bool := n.ty == 7 || n.ty == 14

/-- wr_clausify_append_vars for a universal quantifier, Parser/dbclausify.c:752-760 -/
def appendAll : Assoc → Nat → List Nm → Option (Assoc × Nat)
  | A, vn, [] => some (A, vn)
  | A, vn, v :: vs =>
    if okVar v then appendAll ((v, .nm (newVar (vn + 1))) :: A) (vn + 1) vs else none

/-- the universal variables in the values, Parser/dbclausify.c:768-774 (the last found first).  The
type of a list value is read from the address of its head, which is never that of a variable. -/
def univs (A : Assoc) : List FT :=
  (A.filterMap fun p => match p.2 with
    | .nm n => if n.ty = 14 then some (FT.nm n) else none
    | .app _ _ => none).reverse

/-- a Skolem term, Parser/dbclausify.c:775-776 -/
def skTerm (sn : Nat) (us : List FT) : FT := if us.isEmpty then .nm (skName sn) else .app (skName sn) us

/-- wr_clausify_append_vars for an existential quantifier, Parser/dbclausify.c:761-780; `us` are the
universal variables of the outer scope -/
def appendEx (us : List FT) : Assoc → Nat → List Nm → Option (Assoc × Nat)
  | A, sn, [] => some (A, sn)
  | A, sn, v :: vs =>
    if okVar v then appendEx us ((v, skTerm (sn + 1) us) :: A) (sn + 1) vs else none

/-- wr_clausify_skolemize, Parser/dbclausify.c:648-719: `vn` counts new variables, `sn` Skolem
functions; a negated propositional symbol is looked up, a positive one is not.  After the negation
push only atoms are negated; other negations are not modelled (`none`). -/
def skol (A : Assoc) (vn sn : Nat) : Frm → Option (Frm × Nat × Nat)
  | .at (.nm n) => some (.at (.nm n), vn, sn)
  | .at (.app f as) => (repl A (.app f as)).map fun t => (.at t, vn, sn)
  | .neg (.at t) => (repl A t).map fun t => (.neg (.at t), vn, sn)
  | .neg _ => none
  | .par f => skol A vn sn f
  | .all vs f => (appendAll A vn vs).bind fun (A, vn) => skol A vn sn f
  | .ex vs f => (appendEx (univs A) A sn vs).bind fun (A, sn) => skol A vn sn f
  | .and [a, b] =>
    (skol A vn sn a).bind fun (a, vn, sn) => (skol A vn sn b).map fun (b, vn, sn) => (.and [a, b], vn, sn)
  | .or [a, b] =>
    (skol A vn sn a).bind fun (a, vn, sn) => (skol A vn sn b).map fun (b, vn, sn) => (.or [a, b], vn, sn)
  | _ => none

end Gkc.Clausify
