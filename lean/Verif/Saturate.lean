import Verif.Cuts
import Verif.Rewrite
import Verif.UnifyLemmas
import Verif.PropInst
import Verif.InstGen
import Verif.PropSpec
/-
The saturation loop: Reasoner/rgenloop.c wr_genloop (lines 195-560) with the steps it calls.

The loop is modelled as a transition system that allows every order of steps: which clause is
picked, which inferences are tried, what the indexes offer and what is thrown away is left open,
so each run of the program is among the runs of the model.  The steps themselves are the
functions of Build.lean, Derive.lean, Cuts.lean and Rewrite.lean.

Simplifications.  Unit propagation (propagate.c) is left out, it is never switched on (Reasoner/glb.c:236).
Buffers do not run out.  The indexes hold the
literals themselves, not addresses of clauses in buffers; see DoubleStore.lean for the one
index where this matters.  When a clause is copied with renaming the counter of new variables
starts at 0.
-/
namespace Gkc
open Term

/-- what the loop is run with: evaluation of computable terms, the order of constants, the hash
of head symbols of rewrite rules, the masked summary of an atom -/
structure Cfg where
  ev : Term → Option Term
  wd : Const → Int
  h : Term → Nat
  m : Term → Nat

/-- the clauses the prover holds -/
structure PState where
  /-- clauses waiting in the queues: `clpick_queues`, `hyper_queue` -/
  passive : List (List ALit)
  /-- the clause picked, `given_cl_cand` -/
  cur : Option (List ALit)
  /-- the given clause, `given_cl`: a copy of the picked clause with variables of bank 1 -/
  given : Option (List ALit)
  /-- copies with variables of bank 2, `clactive` -/
  active : List (List ALit)
  /-- unit clauses by sign for simple cuts: `hash_neg_groundunits`, `hash_pos_groundunits` -/
  units : Units
  /-- unit clauses by sign for strong cuts: wr_cl_store_res_units, Reasoner/clstore.c -/
  strong : Bool → List Term
  /-- `hash_neg_grounddoubles`, `hash_pos_grounddoubles` -/
  doubles : List (Lit × Lit)
  /-- unit equations of active clauses, stored as rewrite rules -/
  eqs : List (Term × Term)
  /-- clauses reported as answers, wr_register_answer -/
  answers : List (List Lit)
  /-- `proof_found` with the empty clause -/
  refuted : Bool
  /-- the clauses given to wr_cl_create_propinst, each with the constant for its variables -/
  fed : List (Const × List Lit) := []

/-- the state after the input clauses are in the queues -/
def PState.init (input : List (List ALit)) : PState :=
  ⟨input, none, none, [], ⟨fun _ => [], fun _ => []⟩, fun _ => [], [], [], [], false, []⟩

/-- Every compound atom of the clause is a record of its own; atoms that are constants are the
constant itself, so equal ones have equal words. -/
def Sep (cl : List ALit) : Prop :=
  cl.Pairwise (fun x y => x.addr = y.addr → isRec x.atom = false ∧ x.atom = y.atom)

/-- `cl` is a newly built clause with the literals `ls`: wr_derived_build_cl_from_initial_cl
(Reasoner/derive.c) and wr_build_calc_cl (Reasoner/build.c:115-275) make a record for each
compound atom. -/
def NewCl (ls : List Lit) (cl : List ALit) : Prop := cl.map ALit.lit = ls ∧ Sep cl

/-- A kept clause: one that entered the queues, became the given clause or an active one. -/
inductive PState.Kept (s : PState) (cl : List ALit) : Prop
  | passive (h : cl ∈ s.passive)
  | cur (h : s.cur = some cl)
  | given (h : s.given = some cl)
  | active (h : cl ∈ s.active)

/-- Rewriting and computing the atoms of the picked clause, Reasoner/simp.c:187-205.  An atom
that is not rebuilt keeps its address, one that is rebuilt gets an address unused in the
clause. -/
def RwRun (c : Cfg) (eqs : List (Term × Term)) (cl : List ALit) (rw' : ALit → Out (ALit × Bool)) : Prop :=
  ∀ x ∈ cl, ∀ y w, rw' x = .ok (y, w) →
    (∃ n k, rwBuild c.ev (bucketOf c.h (rulesOf c.wd eqs)) n x.atom = .ok y.atom k) ∧
    ((y.addr = x.addr ∧ y.atom = x.atom) ∨ ∀ k ∈ cl, k.addr ≠ y.addr)

/-- variables bound to numbers -/
def NumBound (isNum : Const → Prop) (st : St) : Prop :=
  ∀ v t, st.b v = some t → v < 4000 ∧ ∃ c, isNum c ∧ t = .const c

/-- an integer or a double -/
def isNumber : Const → Prop
  | .int _ => True
  | .dbl _ => True
  | _ => False

/-- One inference with the given clause `x` of state `s`, Reasoner/rgenloop.c:380-505. -/
inductive Infer (c : Cfg) (s : PState) : List Lit → Prop
  /-- wr_resolve_binary_all_active, rgenloop.c:476 -/
  | resolve {x y : List ALit} {n i j : Nat} {r : List Lit} (hx : s.given = some x) (hy : y ∈ s.active)
      (h : resolveInf c.ev n x i y j = .ok r) : Infer c s r
  /-- wr_factor, rgenloop.c:459-461 -/
  | factor {x : List ALit} {n i j : Nat} {r : List Lit} (hx : s.given = some x)
      (h : factorInf c.ev n x i j = .ok r) : Infer c s r
  /-- wr_resolve_equality_reflexive, rgenloop.c:465-467 -/
  | reflexive {x : List ALit} {n i : Nat} {r : List Lit} (hx : s.given = some x)
      (h : eqReflInf c.ev n x i = .ok r) : Infer c s r
  /-- wr_paramodulate_from_all_active -/
  | paraFrom {x y : List ALit} {n i j k : Nat} {left : Bool} {r : List Lit} (hx : s.given = some x)
      (hy : y ∈ s.active) (h : paraFromInf c.ev n x i left y j k = .ok r) : Infer c s r
  /-- wr_paramodulate_into_all_active -/
  | paraInto {x y : List ALit} {n i j k : Nat} {left : Bool} {r : List Lit} (hx : s.given = some x)
      (hy : y ∈ s.active) (h : paraIntoInf c.ev n y i left x j k = .ok r) : Infer c s r
  /-- instance generation after resolution on the literals `xl` and `yl`, Reasoner/resolve.c:336-346 -/
  | instgen {x y cl : List ALit} {xl yl : ALit} {n n' : Nat} {b : Bool} {st st' : St} {r : List Lit} {s' : BSt}
      (hx : s.given = some x) (hy : y ∈ s.active) (hxl : xl ∈ x) (hyl : yl ∈ y)
      (hu : unify n St.empty xl.atom yl.atom = some (b, st)) (hst : LeftOver st st') (hcl : cl = x ∨ cl = y)
      (h : instgenLits c.ev n' st' cl = .ok r s') : Infer c s r
  /-- wr_generate_arith_instances, rgenloop.c:366: numbers put for variables of the picked
  clause, wr_arith_probe Reasoner/arithinst.c:781-850, wr_process_instgen_result_aux
  Reasoner/derive.c:1528-1643 -/
  | arith {x : List ALit} {n : Nat} {st : St} {r : List Lit} {s' : BSt} (hx : s.cur = some x)
      (hst : NumBound isNumber st) (h : asmCl c.ev 3 n none none 0 [] ⟨st, 0⟩ x = .ok r s') : Infer c s r

/-- What cuts use is taken from the indexes. -/
structure CutsFrom (s : PState) (us : Units) (cands : Bool → Term → List Term)
    (bucket : Bool → Term → List (Lit × Lit)) : Prop where
  loc : ∀ b, us.loc b ⊆ s.units.loc b
  kb : ∀ b, us.kb b ⊆ s.units.kb b
  cands : ∀ b x, cands b x ⊆ s.strong b
  bucket : ∀ b x, bucket b x ⊆ s.doubles

/-- a clause built with variables renamed to a bank, or with the literals as they are -/
inductive Stores (bank : Nat) (r : List Lit) (cl : List ALit) : Prop
  | plain (h : NewCl r cl)
  | renamed (n : Nat) (r' : List Lit) (s' : BSt) (hc : copyCl some bank n St.empty r = .ok r' s') (h : NewCl r' cl)

/-- A literal that does not count against an answer: wr_prop_truefalsity_clause,
Reasoner/build.c:866-920, with wr_answer_lit (766-780); the sign of an answer literal is not
looked at. -/
def isAnswer (l : Lit) : Bool := match l.atom with
  | .app f _ => f == .sym "$ans"
  | .const f => if l.neg then f == .sym "$true" else f == .sym "$false"
  | _ => false

/-- One step of the loop. -/
inductive LStep (c : Cfg) : PState → PState → Prop
  /-- a clause is taken from a queue and its literals are sorted, rgenloop.c:236-305 -/
  | pick {s : PState} {cl cl' : List ALit} (h : cl ∈ s.passive) (hp : cl'.Perm cl) :
      LStep c s { s with cur := some cl', given := none }
  /-- wr_simplify_cl finds the empty clause, rgenloop.c:307, simp.c:328-336 -/
  | simplifyEmpty {s : PState} {cl : List ALit} {rw' us m cands bucket} (h : s.cur = some cl)
      (hu : CutsFrom s us cands bucket) (hr : RwRun c s.eqs cl rw') (he : simplifyCl rw' us m bucket cl = .ok []) :
      LStep c s { s with refuted := true }
  /-- wr_simplify_cl gives a new clause with variables of bank 1, simp.c:337-380 -/
  | simplify {s : PState} {cl cl' : List ALit} {rw' us m cands bucket r} (h : s.cur = some cl)
      (hu : CutsFrom s us cands bucket) (hr : RwRun c s.eqs cl rw') (he : simplifyCl rw' us m bucket cl = .ok r)
      (hne : r ≠ []) (hs : Stores 1 r cl') : LStep c s { s with cur := some cl' }
  /-- wr_simplify_cl for a fact, simp.c:88-144 -/
  | simplifyFactEmpty {s : PState} {x : ALit} {rw'} (h : s.cur = some [x]) (hx : x.neg = false)
      (hr : RwRun c s.eqs [x] rw') (he : simplifyFact rw' x = .ok []) : LStep c s { s with refuted := true }
  | simplifyFact {s : PState} {x : ALit} {cl' : List ALit} {rw' r} (h : s.cur = some [x]) (hx : x.neg = false)
      (hr : RwRun c s.eqs [x] rw') (he : Gkc.simplifyFact rw' x = .ok r) (hne : r ≠ []) (hs : Stores 1 r cl') :
      LStep c s { s with cur := some cl' }
  /-- After the test for tautologies (rgenloop.c:330-340) the clause is copied to bank 1
  (wr_process_given_cl, rgenloop.c:370, 577-633) and the copy to bank 2
  (wr_add_given_cl_active_list or rgenloop.c:437-440). -/
  | activate {s : PState} {cl g a : List ALit} {n n' : Nat} {r r' : List Lit} {s1 s2 : BSt} (h : s.cur = some cl)
      (ht : tautCl c.m (cl.map ALit.lit) = false)
      (h1 : copyCl c.ev 1 n St.empty (cl.map ALit.lit) = .ok r s1) (hg : NewCl r g)
      (h2 : copyCl c.ev 2 n' St.empty r = .ok r' s2) (ha : NewCl r' a) :
      LStep c s { s with given := some g, active := a :: s.active }
  /-- the result of an inference loses all literals to cuts, derive.c:141-160, 190-215 -/
  | deriveEmpty {s : PState} {r us cands bucket fwd strong sdup n m tag st} (h : Infer c s r)
      (hu : CutsFrom s us cands bucket) (hst : St.Inv st ∧ Acyclic st.b) (htag : ∀ ls, NewCl ls (tag ls))
      (hf : finish fwd strong sdup us n cands m bucket tag st r = .ok []) : LStep c s { s with refuted := true }
  /-- the result of an inference enters a queue, derive.c:174-400 -/
  | derive {s : PState} {r r' us cands bucket fwd strong sdup n m tag st} {cl : List ALit} (h : Infer c s r)
      (hu : CutsFrom s us cands bucket) (hst : St.Inv st ∧ Acyclic st.b) (htag : ∀ ls, NewCl ls (tag ls))
      (hf : finish fwd strong sdup us n cands m bucket tag st r = .ok r') (hne : r' ≠ []) (hs : Stores 3 r' cl) :
      LStep c s { s with passive := cl :: s.passive }
  /-- wr_add_cl_to_unithash, derive.c:1878-1950 -/
  | learnUnit {s : PState} {x : ALit} (h : s.Kept [x]) :
      LStep c s { s with units := { s.units with loc := fun b => if b = x.neg then x.atom :: s.units.loc b else s.units.loc b } }
  /-- the tables of the attached knowledge base -/
  | learnUnitKb {s : PState} {x : ALit} (h : s.Kept [x]) :
      LStep c s { s with units := { s.units with kb := fun b => if b = x.neg then x.atom :: s.units.kb b else s.units.kb b } }
  /-- wr_cl_store_res_units, derive.c:381 -/
  | learnStrong {s : PState} {x : ALit} (h : s.Kept [x]) :
      LStep c s { s with strong := fun b => if b = x.neg then x.atom :: s.strong b else s.strong b }
  /-- wr_add_cl_to_doublehash, derive.c:370, 1963-2019 -/
  | learnDouble {s : PState} {x y : ALit} (h : s.Kept [x, y]) :
      LStep c s { s with doubles := (x.lit, y.lit) :: s.doubles }
  /-- a unit equation among the active clauses becomes a rewrite rule, clstore.c:572-600 -/
  | learnEq {s : PState} {x : ALit} {a b : Term} {as : List Term} (h : [x] ∈ s.active) (hx : x.neg = false)
      (ha : x.atom = .app (.sym "=") (a :: b :: as)) : LStep c s { s with eqs := (a, b) :: s.eqs }
  /-- a clause of answer literals is reported, rgenloop.c:345-352, derive.c:283-291 -/
  | answer {s : PState} {cl : List ALit} (h : s.Kept cl) (ha : ∀ l ∈ cl, isAnswer l.lit = true) :
      LStep c s { s with answers := cl.map ALit.lit :: s.answers }
  /-- a clause is given to wr_cl_create_propinst, derive.c:389, 599, 824, 1166, rmain.c:1473, 1541, 1634 -/
  | propFeed {s : PState} {cl : List ALit} (g : Const) (h : s.Kept cl) :
      LStep c s { s with fed := s.fed ++ [(g, cl.map ALit.lit)] }
  /-- wr_cl_create_propinst finds a contradiction, prop.c:178-188 -/
  | propContra {s : PState} {h : Const → BitVec 64} (hf : PropInst.feed h s.fed PropInst.PSt.init = .contra) :
      LStep c s { s with refuted := true }
  /-- wr_prop_solve_current, rmain.c:820-826: the solver finds the file unsatisfiable -/
  | propSolve {s : PState} {h : Const → BitVec 64} {p : PropInst.PSt} (hf : PropInst.feed h s.fed PropInst.PSt.init = .ok p)
      (hu : ¬ PropInst.Satisfiable (PropInst.file p).2.2) : LStep c s { s with refuted := true }
  /-- clauses and index entries are thrown away: limits, subsumption, end of a round -/
  | forget {s t : PState} (h1 : t.passive ⊆ s.passive) (h2 : t.cur = s.cur ∨ t.cur = none)
      (h3 : t.given = s.given ∨ t.given = none) (h4 : t.active ⊆ s.active) (h5 : ∀ b, t.units.loc b ⊆ s.units.loc b)
      (h6 : ∀ b, t.units.kb b ⊆ s.units.kb b) (h7 : ∀ b, t.strong b ⊆ s.strong b) (h8 : t.doubles ⊆ s.doubles)
      (h9 : t.eqs ⊆ s.eqs) (h10 : t.answers = s.answers) (h11 : t.refuted = s.refuted) (h12 : t.fed ⊆ s.fed) : LStep c s t

/-- runs in which all states satisfy `P` -/
inductive Run (c : Cfg) (P : PState → Prop) (input : List (List ALit)) : PState → Prop
  | start (h : P (PState.init input)) : Run c P input (PState.init input)
  | step {s t : PState} (hr : Run c P input s) (hs : LStep c s t) (hp : P t) : Run c P input t

end Gkc
