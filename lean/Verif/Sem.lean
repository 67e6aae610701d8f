import Verif.Meta
/-
First-order semantics of clauses.  This is the specification side: it mentions no GKC
function.

An interpretation gives a domain, a value for every constant, a function for every function
symbol, and says which domain elements count as true; an atom is true when the value of the
term is.  `Interp.ofFO` turns a structure with separate predicates into such an interpretation,
so nothing is lost.
-/
namespace Gkc
open Term

structure Interp where
  D : Type
  cst : Const → D
  fn : Const → List D → D
  tr : D → Prop

mutual
/-- value of a term -/
def eval (I : Interp) (ρ : Nat → I.D) : Term → I.D
  | .var v => ρ v
  | .const c => I.cst c
  | .app f as => I.fn f (evalL I ρ as)
/-- values of a list of terms -/
def evalL (I : Interp) (ρ : Nat → I.D) : List Term → List I.D
  | [] => []
  | a :: as => eval I ρ a :: evalL I ρ as
end

/-- truth of a literal -/
def Lit.tr (I : Interp) (ρ : Nat → I.D) (l : Lit) : Prop :=
  if l.neg then ¬ I.tr (eval I ρ l.atom) else I.tr (eval I ρ l.atom)

/-- truth of a clause: its universal closure -/
def ClTrue (I : Interp) (cl : List Lit) : Prop := ∀ ρ : Nat → I.D, ∃ l ∈ cl, l.tr I ρ

/-- `=` means identity: of the objects `π d` that the domain elements stand for, which is also
all that functions depend on.  With `π d = d` this says that `=` is identity on the domain; the
general form is needed so that structures with separate predicates are covered
(`ofFO_eqInterp`). -/
def EqInterp (I : Interp) : Prop := ∃ (E : Type) (π : I.D → E),
  (∀ a b : I.D, I.tr (I.fn (.sym "=") [a, b]) ↔ π a = π b) ∧
  (∀ f as bs, as.map π = bs.map π → I.fn f as = I.fn f bs)

/-- a structure in the usual form: functions and predicates separate -/
structure FO where
  D : Type
  cst : Const → D
  fn : Const → List D → D
  pr : Const → List D → Prop

/-- every structure in the usual form is an interpretation -/
def Interp.ofFO (M : FO) : Interp where
  D := M.D × Prop
  cst c := (M.cst c, M.pr c [])
  fn f as := (M.fn f (as.map Prod.fst), M.pr f (as.map Prod.fst))
  tr d := d.2

mutual
/-- value of a term in a structure in the usual form -/
def FO.eval (M : FO) (ρ : Nat → M.D) : Term → M.D
  | .var v => ρ v
  | .const c => M.cst c
  | .app f as => M.fn f (M.evalL ρ as)
/-- values of a list of terms -/
def FO.evalL (M : FO) (ρ : Nat → M.D) : List Term → List M.D
  | [] => []
  | a :: as => M.eval ρ a :: M.evalL ρ as
end

mutual
theorem ofFO_eval (M : FO) (ρ : Nat → M.D × Prop) : ∀ t : Term,
    (Gkc.eval (Interp.ofFO M) ρ t).1 = M.eval (fun v => (ρ v).1) t
  | .var v => rfl
  | .const c => rfl
  | .app f as => by
    simp only [Gkc.eval, FO.eval, Interp.ofFO]
    congr 1
    exact ofFO_evalL M ρ as
theorem ofFO_evalL (M : FO) (ρ : Nat → M.D × Prop) : ∀ as : List Term,
    (Gkc.evalL (Interp.ofFO M) ρ as).map Prod.fst = M.evalL (fun v => (ρ v).1) as
  | [] => rfl
  | a :: as => by
    simp only [Gkc.evalL, FO.evalL]
    exact congr (congrArg List.cons (ofFO_eval M ρ a)) (ofFO_evalL M ρ as)
end

/-- atoms mean in `Interp.ofFO M` what they mean in `M` -/
theorem ofFO_atom (M : FO) (ρ : Nat → M.D × Prop) (p : Const) (as : List Term) :
    (Interp.ofFO M).tr (Gkc.eval (Interp.ofFO M) ρ (.app p as)) ↔
      M.pr p (M.evalL (fun v => (ρ v).1) as) := by
  have := ofFO_evalL M ρ as
  simp only [Gkc.eval, Interp.ofFO]
  rw [← this]; rfl

/-- truth of an atom in a structure in the usual form -/
def FO.atom (M : FO) (ρ : Nat → M.D) : Term → Prop
  | .var _ => False
  | .const c => M.pr c []
  | .app p as => M.pr p (M.evalL ρ as)

/-- truth of a clause in a structure in the usual form -/
def FO.holds (M : FO) (cl : List Lit) : Prop :=
  ∀ ρ : Nat → M.D, ∃ l ∈ cl, if l.neg then ¬ M.atom ρ l.atom else M.atom ρ l.atom

/-- clauses whose atoms are not variables hold in `M` exactly when they hold in
`Interp.ofFO M` -/
theorem ofFO_holds (M : FO) (cl : List Lit) (h : ∀ l ∈ cl, ∀ v, l.atom ≠ .var v) :
    ClTrue (Interp.ofFO M) cl ↔ M.holds cl := by
  have key : ∀ (ρ : Nat → M.D × Prop), ∀ l ∈ cl,
      (l.tr (Interp.ofFO M) ρ ↔ if l.neg then ¬ M.atom (fun v => (ρ v).1) l.atom else M.atom (fun v => (ρ v).1) l.atom) := by
    intro ρ l hl
    have ha : (Interp.ofFO M).tr (Gkc.eval (Interp.ofFO M) ρ l.atom) ↔ M.atom (fun v => (ρ v).1) l.atom := by
      cases e : l.atom with
      | var v => exact absurd e (h l hl v)
      | const c => exact Iff.rfl
      | app p as => exact ofFO_atom M ρ p as
    unfold Lit.tr
    split
    · exact not_congr ha
    · exact ha
  constructor
  · intro hc ρ
    obtain ⟨l, hl, ht⟩ := hc (fun v => (ρ v, True))
    exact ⟨l, hl, (key _ l hl).1 ht⟩
  · intro hc ρ
    obtain ⟨l, hl, ht⟩ := hc (fun v => (ρ v).1)
    exact ⟨l, hl, (key _ l hl).2 ht⟩

/-- if `=` is identity in the structure, it is in the interpretation -/
theorem ofFO_eqInterp (M : FO) (h : ∀ a b, M.pr (.sym "=") [a, b] ↔ a = b) : EqInterp (Interp.ofFO M) := by
  refine ⟨M.D, Prod.fst, ?_, ?_⟩
  · intro a b; exact h a.1 b.1
  · intro f as bs e
    show (M.fn f (as.map Prod.fst), M.pr f (as.map Prod.fst)) = (M.fn f (bs.map Prod.fst), M.pr f (bs.map Prod.fst))
    have e' : as.map (Prod.fst : M.D × Prop → M.D) = bs.map Prod.fst := e
    rw [e']

/-! ### Substitution -/

mutual
theorem eval_subst (I : Interp) (ρ : Nat → I.D) (θ : Nat → Term) : ∀ t : Term,
    eval I ρ (subst θ t) = eval I (fun v => eval I ρ (θ v)) t
  | .var v => by simp [eval]
  | .const c => by simp [eval]
  | .app f as => by simp only [subst, eval, eval_substL I ρ θ as]
theorem eval_substL (I : Interp) (ρ : Nat → I.D) (θ : Nat → Term) : ∀ as : List Term,
    evalL I ρ (substL θ as) = evalL I (fun v => eval I ρ (θ v)) as
  | [] => rfl
  | a :: as => by simp only [substL, evalL, eval_subst I ρ θ a, eval_substL I ρ θ as]
end

theorem evalL_eq_map (I : Interp) (ρ : Nat → I.D) (as : List Term) :
    evalL I ρ as = as.map (eval I ρ) := by
  induction as with
  | nil => rfl
  | cons a as ih => simp [evalL, ih]

theorem Lit.tr_subst (I : Interp) (ρ : Nat → I.D) (θ : Nat → Term) (l : Lit) :
    (l.subst θ).tr I ρ ↔ l.tr I (fun v => eval I ρ (θ v)) := by
  unfold Lit.tr Lit.subst; simp only [eval_subst]

/-- an instance of a true clause is true -/
theorem ClTrue.subst {I : Interp} {cl : List Lit} (h : ClTrue I cl) (θ : Nat → Term) :
    ClTrue I (cl.map (Lit.subst θ)) := by
  intro ρ
  obtain ⟨l, hl, ht⟩ := h (fun v => eval I ρ (θ v))
  exact ⟨l.subst θ, List.mem_map_of_mem hl, (Lit.tr_subst I ρ θ l).2 ht⟩

theorem ClTrue.mono {I : Interp} {cl cl' : List Lit} (h : ClTrue I cl) (hs : ∀ l ∈ cl, l ∈ cl') :
    ClTrue I cl' := by
  intro ρ
  obtain ⟨l, hl, ht⟩ := h ρ
  exact ⟨l, hs l hl, ht⟩

end Gkc
