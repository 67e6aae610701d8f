import Verif.Sem
/-
Specification for propositional instances (C46): ground instances under an interpretation and
propositional clauses in DIMACS numbers.  No function of GKC is mentioned.
-/
namespace Gkc.PropInst
open Term

/-- the instance with the constant for every variable -/
def ground (g : Const) (x : Term) : Term := x.subst (fun _ => .const g)

/-- the instance of the clause with the constant for every variable is true -/
def InstTrue (I : Interp) (c : Const × List Lit) : Prop :=
  ∃ l ∈ c.2, if l.neg then ¬ I.tr (eval I (fun _ => I.cst c.1) l.atom) else I.tr (eval I (fun _ => I.cst c.1) l.atom)

/-- the propositional clause, in DIMACS numbers, is true -/
def PSat (v : Nat → Prop) (c : List Int) : Prop :=
  ∃ x ∈ c, (0 < x ∧ v x.toNat) ∨ (x < 0 ∧ ¬ v (-x).toNat)

/-- the propositional clauses are satisfiable -/
def Satisfiable (cs : List (List Int)) : Prop := ∃ v : Nat → Prop, ∀ c ∈ cs, PSat v c

end Gkc.PropInst
