/-
Formulas as the parsers hand them to the clausifier (Parser/dbclausify.c): list structures in a
memory pool.

A pool atom is a type and a string (Db/dbmpool.c:595-626).  A list whose head is a logical
connective (wg_islogconnective, Db/dbmpool.c:855-869) is a compound formula; `par` is a list with a
single list in it ("pointless parenthesis").  Ill-shaped lists (a connective without arguments, a
quantifier without two arguments, a list in head position) are left out: the code answers them
with a warning.  Lists are trees here; the code replaces variables in place, so it matters that the
formula layer does not share literals (wr_clausify_negpush copies what it uses twice).
-/
namespace Gkc.Clausify

/-- a pool atom: type number and string (Db/dbmpool.c:772-782).  A URI with a second string is
given another type number than 7 (all functions below treat it as not replaceable). -/
structure Nm where
  ty : Nat
  str : String
deriving DecidableEq, Repr

/-- WG_URITYPE, Db/dbdata.h:66 -/
def uri (s : String) : Nm := ⟨7, s⟩
/-- WG_VARTYPE, Db/dbdata.h:73 -/
def varN (s : String) : Nm := ⟨14, s⟩

/-- terms and atomic formulas: a pool atom, or a list with a pool atom as head -/
inductive FT where
  | nm (n : Nm)
  | app (f : Nm) (as : List FT)
deriving Repr

/-- formulas -/
inductive Frm where
  | at (t : FT)
  | neg (f : Frm)
  | and (fs : List Frm)
  | or (fs : List Frm)
  | imp (fs : List Frm)
  | eqv (a b : Frm)
  | all (vs : List Nm) (f : Frm)
  | ex (vs : List Nm) (f : Frm)
  | par (f : Frm)
deriving Repr

/-! ### Meaning (specification) -/

/-- an interpretation of function and predicate symbols over a domain; symbols in argument
position without arguments (constants and variables) are valued by an assignment `Nm → D` -/
structure FInt (D : Type) where
  fn : Nm → List D → D
  pr : Nm → List D → Prop

mutual
/-- value of a term -/
def FInt.ev {D : Type} (I : FInt D) (ρ : Nm → D) : FT → D
  | .nm n => ρ n
  | .app f as => I.fn f (I.evL ρ as)
/-- values of terms -/
def FInt.evL {D : Type} (I : FInt D) (ρ : Nm → D) : List FT → List D
  | [] => []
  | a :: as => I.ev ρ a :: I.evL ρ as
end

/-- truth of an atomic formula -/
def FInt.atom {D : Type} (I : FInt D) (ρ : Nm → D) : FT → Prop
  | .nm p => I.pr p []
  | .app p as => I.pr p (I.evL ρ as)

/-- two assignments differ at most on `vs` -/
def Variant {D : Type} (vs : List Nm) (ρ ρ' : Nm → D) : Prop := ∀ n, n ∉ vs → ρ' n = ρ n

mutual
/-- truth of a formula: the textbook definition; an implication list means that the last member
follows from the others together -/
def FInt.holds {D : Type} (I : FInt D) (ρ : Nm → D) : Frm → Prop
  | .at t => I.atom ρ t
  | .neg f => ¬ I.holds ρ f
  | .and fs => I.holdsAll ρ fs
  | .or fs => I.holdsAny ρ fs
  | .imp fs => I.holdsImp ρ fs
  | .eqv a b => (I.holds ρ a ↔ I.holds ρ b)
  | .all vs f => ∀ ρ', Variant vs ρ ρ' → I.holds ρ' f
  | .ex vs f => ∃ ρ', Variant vs ρ ρ' ∧ I.holds ρ' f
  | .par f => I.holds ρ f
/-- all are true -/
def FInt.holdsAll {D : Type} (I : FInt D) (ρ : Nm → D) : List Frm → Prop
  | [] => True
  | f :: fs => I.holds ρ f ∧ I.holdsAll ρ fs
/-- some is true -/
def FInt.holdsAny {D : Type} (I : FInt D) (ρ : Nm → D) : List Frm → Prop
  | [] => False
  | f :: fs => I.holds ρ f ∨ I.holdsAny ρ fs
/-- the last is true if all others are -/
def FInt.holdsImp {D : Type} (I : FInt D) (ρ : Nm → D) : List Frm → Prop
  | [] => True
  | f :: fs => match fs with
    | [] => I.holds ρ f
    | _ :: _ => I.holds ρ f → I.holdsImp ρ fs
end

end Gkc.Clausify
