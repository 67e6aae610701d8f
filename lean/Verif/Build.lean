import Verif.Unify
import Verif.Meta
/-
Building term and clause copies: Reasoner/build.c wr_build_calc_term, wr_build_calc_cl,
wr_build_calc_term_replace.

The flag combinations used are (`build_subst`,`build_rename`) = (1,1) when a derived clause is
assembled (derive.c:2153-2169), (0,1) when a clause is copied (rgenloop.c:769-784,
derive.c:2229-2246) and (0,0) for the plain copy of the assembled literals
(derive.c:2194-2227).  Bindings are followed when either flag is set (build.c:310), so the
first two behave alike: that is the function modelled here.  Rewriting during building is in
Rewrite.lean.
Simplification: the term buffers never run out; when they do the C code gives WG_ILLEGAL, the
outcome `illegal` here.
-/
namespace Gkc
open Term

/-- ACONST_FALSE, Db/dballoc.h:566 -/
def aFalse : Const := .oth 0
/-- ACONST_TRUE, Db/dballoc.h:568 -/
def aTrue : Const := .oth 1

/-- outcome of a builder -/
inductive Out (α : Type)
  /-- the recursion budget of the model ran out -/
  | fuel
  /-- WG_ILLEGAL -/
  | illegal
  | ok (a : α)

/-- state of a builder: bindings and `build_rename_vc` -/
structure BSt where
  st : St
  vc : Nat

/-- Renaming of an unbound variable, Reasoner/build.c:321-340 (and 638-657): FIRST_UNREAL_VAR_NR
4000, NROF_VARSINBANK 1000 (Reasoner/glb.h). -/
def renameVar (bank : Nat) (s : BSt) (v : Nat) : Out (Term × BSt) :=
  if v < 4000 then
    if s.vc ≥ 1000 then .illegal
    else .ok (.var (bank * 1000 + s.vc), ⟨s.st.set v (.var (4000 + s.vc)), s.vc + 1⟩)
  else .ok (.var (bank * 1000 + (v - 4000)), s)

/-- the field loop, Reasoner/build.c:390-408 -/
def buildL (f : BSt → Term → Out (Term × BSt)) : BSt → List Term → Out (List Term × BSt)
  | s, [] => .ok ([], s)
  | s, a :: as => match f s a with
    | .fuel => .fuel
    | .illegal => .illegal
    | .ok (a', s') => match buildL f s' as with
      | .fuel => .fuel
      | .illegal => .illegal
      | .ok (as', s'') => .ok (a' :: as', s'')

/-- wr_build_calc_term, Reasoner/build.c:289-452, without rewriting.  `ev` is the evaluation of
a record whose fields are built (build.c:424-437): the record itself when computing is off or
the function is not computable, the value otherwise, `none` = WG_ILLEGAL.  The function symbol
is a constant, built to itself. -/
def build (ev : Term → Option Term) (bank : Nat) : Nat → BSt → Term → Out (Term × BSt)
  | 0, _, _ => .fuel
  | n + 1, s, x => match walk s.st.b (n + 1) x with
    | none => .fuel
    | some (.const c) => .ok (.const c, s)
    | some (.var v) => renameVar bank s v
    | some (.app f as) => match buildL (build ev bank n) s as with
      | .fuel => .fuel
      | .illegal => .illegal
      | .ok (as', s') => match ev (.app f as') with
        | none => .illegal
        | some r => .ok (r, s')

/-- the field loop of wr_build_calc_term_replace, Reasoner/build.c:697-729: the position counter
grows before each argument; fields after the position are built normally.  `fr` is the
recursive call, `fb` the ordinary builder. -/
def replaceL (fr : BSt → Term → Nat → Out (Term × BSt × Nat)) (fb : BSt → Term → Out (Term × BSt))
    (pos : Nat) : BSt → List Term → Nat → Out (List Term × BSt × Nat)
  | s, [], path => .ok ([], s, path)
  | s, a :: as, path =>
    match (if path + 1 ≤ pos then fr s a (path + 1) else match fb s a with
        | .fuel => .fuel
        | .illegal => .illegal
        | .ok (a', s') => .ok (a', s', path + 1)) with
    | .fuel => .fuel
    | .illegal => .illegal
    | .ok (a', s', p') => match replaceL fr fb pos s' as p' with
      | .fuel => .fuel
      | .illegal => .illegal
      | .ok (as', s'', p'') => .ok (a' :: as', s'', p'')

/-- wr_build_calc_term_replace, Reasoner/build.c:602-758: build `x` with the argument at
position `pos` (positions number the arguments of the original term in pre-order from 1, not
entering values of variables) replaced by `repl`. -/
def buildRepl (ev : Term → Option Term) (bank pos : Nat) (repl : Term) :
    Nat → BSt → Term → Nat → Out (Term × BSt × Nat)
  | 0, _, _, _ => .fuel
  | n + 1, s, x, path =>
    if path = pos then match build ev bank (n + 1) s repl with
      | .fuel => .fuel
      | .illegal => .illegal
      | .ok (r, s') => .ok (r, s', path)
    else match x with
    | .const c => .ok (.const c, s, path)
    | .var v => match build ev bank (n + 1) s (.var v) with
      | .fuel => .fuel
      | .illegal => .illegal
      | .ok (r, s') => .ok (r, s', path)
    | .app f as => match replaceL (buildRepl ev bank pos repl n) (build ev bank n) pos s as path with
      | .fuel => .fuel
      | .illegal => .illegal
      | .ok (as', s', path') => match ev (.app f as') with
        | none => .illegal
        | some r => .ok (r, s', path')

/-- outcome of copying a clause -/
inductive ClOut
  | fuel
  | illegal
  /-- ACONST_FALSE / ACONST_TRUE instead of a clause -/
  | truth (b : Bool)
  | ok (cl : List Lit) (s : BSt)

/-- loop of wr_build_calc_cl over the literals, Reasoner/build.c:255-264 -/
def copyLits (ev : Term → Option Term) (bank n : Nat) : BSt → List Lit → ClOut
  | s, [] => .ok [] s
  | s, l :: ls => match build ev bank n s l.atom with
    | .fuel => .fuel
    | .illegal => .illegal
    | .ok (a, s') =>
      if a.beq (.const aFalse) then .truth false
      else if a.beq (.const aTrue) then .truth true
      else match copyLits ev bank n s' ls with
        | .ok ls' s'' => .ok (⟨l.neg, a⟩ :: ls') s''
        | o => o

/-- wr_build_calc_cl, Reasoner/build.c:115-275, rule clauses: the counter is reset. -/
def copyCl (ev : Term → Option Term) (bank n : Nat) (st : St) (cl : List Lit) : ClOut :=
  copyLits ev bank n ⟨st, 0⟩ cl

end Gkc
