import Verif.Problem
import Verif.Props.Parse
import Verif.Props.ClausalBack
/-
C67: what is proved from a TPTP file follows from what the file says, and what follows is not lost on the way to the prover.

Specification: Conv.Spec (formulas, `Struct.means`), ParseSpec.lean (how formulas and files are written), and the first section here
(which problems, which structures).  Model: Parse.lean (scanner and parser), Problem.lean (statements), Clausify.lean, Saturate.lean.
-/
namespace Gkc.Props.Pb
open Gkc Gkc.Clausify Gkc.Pb
open Gkc.Ps.Spec (File Text Stmt)
open Gkc.Conv (Lst Atm)
open Gkc.Js (Jv readF readT readTL readFL readVars)
open Gkc.Conv.Spec (T F Op sym word trees Struct)

/-! ### Problems (specification) -/

/-- the ways names are used; `q` for "in quotes" -/
inductive Use where
  | var (x : String)
  | cst (q : Bool) (s : String)
  | obj (s : String)
  | num (t : String)
  | fn (q : Bool) (f : String)
  | op (o : String)
  | pr (q : Bool) (p : String)
  | prop (q : Bool) (p : String)

mutual
/-- the uses in a term -/
def usesT : T → List Use
  | .var x => [.var x]
  | .name q s => [.cst q s]
  | .obj s => [.obj s]
  | .num t => [.num t]
  | .app q f as => .fn q f :: usesTL as
  | .arith op a b => .op op :: (usesT a ++ usesT b)
/-- the uses in terms -/
def usesTL : List T → List Use
  | [] => []
  | a :: as => usesT a ++ usesTL as
end

/-- the uses in a formula -/
def uses : F → List Use
  | .atom q p as => .pr q p :: usesTL as
  | .prop q p => [.prop q p]
  | .const _ => []
  | .eq a b => usesT a ++ usesT b
  | .neq a b => usesT a ++ usesT b
  | .neg f => uses f
  | .bin _ a b => uses a ++ uses b
  | .all vs f => vs.map .var ++ uses f
  | .ex vs f => vs.map .var ++ uses f

/-- the arithmetic functions have two names -/
def arithName (s : String) : String :=
  if s = "$sum" then "+" else if s = "$difference" then "-" else if s = "$product" then "*" else if s = "$quotient" then "/" else s

/-- a name as the grammar of TPTP wants it: without quotes it begins neither with a capital letter nor with a question mark; in quotes it is
not the name of a truth value or of an arithmetic function -/
def NameOk (q : Bool) (s : String) : Prop :=
  (q = false → varStr ⟨true, true⟩ s = false) ∧ (q = true → s ∉ ["$true", "$false", "$sum", "$difference", "$product", "$quotient"])

/-- a use that keeps to the roles; numbers are integers below 2^31; a variable begins with a capital letter -/
def Keeps (rl : String → SRole) : Use → Prop
  | .var x => Js.Spec.capital x = true
  | .cst q s => NameOk q s ∧ rl s = .cnst
  | .obj s => s ∉ ["", "$true", "$false"]
  | .num t => t.toList ≠ [] ∧ t.toList.all Char.isDigit = true ∧ decimal t < 2 ^ 31
  | .fn q f => NameOk q f ∧ rl (arithName f) = .func ∧ f ≠ "$$lst"
  | .op o => o ∈ ["+", "-", "*"] ∧ rl o = .func
  | .pr q p => NameOk q p ∧ rl p = .pred ∧ p ≠ "="
  | .prop q p => NameOk q p ∧ rl p = .prop

/-- no variable is written like a name in quotes or a distinct object of the same formula -/
def Apart (f : F) : Prop := ∀ x, Use.var x ∈ uses f → Use.cst true x ∉ uses f ∧ Use.obj x ∉ uses f ∧ Use.fn true x ∉ uses f ∧ Use.pr true x ∉ uses f ∧ Use.prop true x ∉ uses f

/-- a role for each name; the names of the clausifier are not used -/
structure Sig (rl : String → SRole) : Prop where
  pr : rl "$pr" = .unused
  tt : rl "$true" = .prop
  ff : rl "$false" = .prop
  eq : rl "=" = .pred
  sk : ∀ k : Nat, rl ("$sk" ++ toString k) = .unused
  df : ∀ k : Nat, rl ("$df" ++ toString k) = .unused

/-- a disjunction of atoms and negated atoms -/
inductive Clause : F → Prop
  | atom (q : Bool) (p : String) (as : List T) : Clause (.atom q p as)
  | prop (q : Bool) (p : String) : Clause (.prop q p)
  | const (b : Bool) : Clause (.const b)
  | eq (a b : T) : Clause (.eq a b)
  | neq (a b : T) : Clause (.neq a b)
  | natom (q : Bool) (p : String) (as : List T) : Clause (.neg (.atom q p as))
  | nprop (q : Bool) (p : String) : Clause (.neg (.prop q p))
  | nconst (b : Bool) : Clause (.neg (.const b))
  | neq' (a b : T) : Clause (.neg (.eq a b))
  | or {f g : F} (hf : Clause f) (hg : Clause g) : Clause (.bin .or f g)

/-- a statement of the language: `fof` with a role, `cnf` with a role that is not `conjecture` and a clause, or a formula alone that does not look like
a statement -/
def StmtOk (s : Stmt) : Prop :=
  match s.head with
  | some (k, _, _, r) => k = "fof" ∨ k = "cnf" ∧ r ≠ "conjecture" ∧ Clause s.frm
  | none => ∀ p as, s.frm = .atom false p as → p ∉ ["fof", "cnf", "include"]

/-- something to be proved -/
def Goal (s : Stmt) : Prop := ∃ q n, s.head = some ("fof", q, n, "conjecture")

/-- the statements are of the language, each name is used in one role, and no name is a variable and something else -/
structure Fine (rl : String → SRole) (P : List Stmt) : Prop where
  sig : Sig rl
  ok : ∀ s ∈ P, StmtOk s
  keeps : ∀ s ∈ P, ∀ u ∈ uses s.frm, Keeps rl u
  apart : ∀ s ∈ P, Apart s.frm

/-- the name is in quotes, or not -/
def Quoted (qd : String → Bool) : Use → Prop
  | .cst q s => q = qd s
  | .fn q s => q = qd s
  | .pr q s => q = qd s
  | .prop q s => q = qd s
  | _ => True

/-- a name is always in quotes or never; the signs are not -/
structure Quotes (qd : String → Bool) (P : List Stmt) : Prop where
  signs : ∀ s ∈ ["=", "$true", "$false", "+", "-", "*", "/"], qd s = false
  same : ∀ st ∈ P, ∀ u ∈ uses st.frm, Quoted qd u

/-- A structure in which `=` is identity, `$true` and `$false` mean what they say, the two names of an arithmetic function
mean the same and so do decimal numerals with the same value; it has two elements. -/
structure Normal {D : Type} (S : Struct D) : Prop where
  eq : ∀ a b, S.pr "=" [a, b] ↔ a = b
  tt : S.pr "$true" []
  ff : ¬ S.pr "$false" []
  arith : ∀ s, S.fn (arithName s) = S.fn s
  num : ∀ t t' : String, t.toList.all Char.isDigit = true → t'.toList.all Char.isDigit = true → decimal t = decimal t' → S.num t = S.num t'
  two : ∃ d e : D, d ≠ e

/-! ### What the clausifier gets -/

/-- a name -/
def nm (q : Bool) (s : String) : Nm := ⟨if q then 107 else 7, s⟩

mutual
/-- the term for the clausifier -/
def ft : T → FT
  | .var x => .nm (uri x)
  | .name q s => .nm (nm q s)
  | .obj s => .nm ⟨207, s⟩
  | .num t => .nm ⟨3, t⟩
  | .app q f as => .app (nm q f) (ftL as)
  | .arith op a b => .app ⟨13, op⟩ [ft a, ft b]
/-- the terms -/
def ftL : List T → List FT
  | [] => []
  | a :: as => ft a :: ftL as
end

/-- the formula for the clausifier -/
def fr : F → Frm
  | .atom q p as => .at (.app (nm q p) (ftL as))
  | .prop q p => .at (.nm (nm q p))
  | .const b => .at (.nm (uri (if b then "$true" else "$false")))
  | .eq a b => .at (.app ⟨13, "="⟩ [ft a, ft b])
  | .neq a b => .neg (.at (.app ⟨13, "="⟩ [ft a, ft b]))
  | .neg f => .neg (fr f)
  | .bin op a b => match op with
    | .and => .and [fr a, fr b]
    | .or => .or [fr a, fr b]
    | .imp => .imp [fr a, fr b]
    | .rimp => .imp [fr b, fr a]
    | .eqv => .eqv (fr a) (fr b)
    | .xor => .neg (.eqv (fr a) (fr b))
    | .nor => .neg (.or [fr a, fr b])
    | .nand => .neg (.and [fr a, fr b])
  | .all vs f => .all (vs.map uri) (fr f)
  | .ex vs f => .ex (vs.map uri) (fr f)

theorem nmOf_sym (q : Bool) (s : String) : seen (sym q s) = .atom (nm q s) := by
  cases q <;> simp [sym, seen, nmOf, nm]

mutual
theorem read_T : ∀ t : T, readT (seen t.tree) = some (ft t)
  | .var x => by simp [T.tree, nmOf_sym, readT, ft, nm, uri]
  | .name q s => by simp [T.tree, nmOf_sym, readT, ft]
  | .obj s => by simp [T.tree, seen, nmOf, readT, ft]
  | .num t => by simp [T.tree, seen, nmOf, readT, ft]
  | .app q f as => by simp [T.tree, seen, seenL, nmOf_sym, readT, ft, read_TL as]
  | .arith op a b => by simp [T.tree, seen, seenL, word, nmOf, readT, readTL, ft, read_T a, read_T b]
theorem read_TL : ∀ ts : List T, readTL (seenL (trees ts)) = some (ftL ts)
  | [] => by simp [trees, seenL, readTL, ftL]
  | t :: ts => by simp [trees, seenL, readTL, ftL, read_T t, read_TL ts]
end

theorem seenL_map (vs : List String) : seenL (vs.map (sym false)) = vs.map fun x => Jv.atom (uri x) := by
  induction vs with
  | nil => rfl
  | cons v vs ih => simp [seenL, nmOf_sym, ih, nm, uri]

theorem readVars_map (vs : List String) : readVars (vs.map fun x => Jv.atom (uri x)) = some (vs.map uri) := by
  induction vs with
  | nil => rfl
  | cons v vs ih => simp [readVars, ih]

/-- the head of a list that is no connective -/
theorem read_app {n : Nm} {as : List Jv} (h : n.ty = 13 → n.str ∉ ["not", "and", "or", "imp", "eqv", "all", "exists"]) :
    readF (.list (.atom n :: as)) = (readTL as).map fun as => .at (.app n as) := by
  have k : ∀ s, s ∈ ["not", "and", "or", "imp", "eqv", "all", "exists"] → ¬ (n.ty = 13 ∧ n.str = s) := by
    rintro s hs ⟨h1, rfl⟩
    exact h h1 hs
  unfold readF
  rw [if_neg (k _ (by decide)), if_neg (k _ (by decide)), if_neg (k _ (by decide)), if_neg (k _ (by decide)), if_neg (k _ (by decide)),
    if_neg (k _ (by decide)), if_neg (k _ (by decide))]

/-- the list for a formula is read as the formula -/
theorem read_F : ∀ f : F, readF (seen f.tree) = some (fr f)
  | .atom q p as => by
    simp only [F.tree, seen, seenL, nmOf_sym]
    rw [read_app (by cases q <;> simp [nm]), read_TL]
    rfl
  | .prop q p => by simp [F.tree, nmOf_sym, readF, fr]
  | .const b => by simp [F.tree, nmOf_sym, readF, fr, nm, uri]
  | .eq a b => by
    simp only [F.tree, seen, seenL, word, nmOf]
    rw [read_app (by simp)]
    simp [readTL, read_T, fr]
  | .neq a b => by
    have := read_app (n := ⟨13, "="⟩) (as := [seen a.tree, seen b.tree]) (by simp)
    simp [F.tree, seen, seenL, word, nmOf, readF, readTL, read_T, fr]
  | .neg f => by simp [F.tree, seen, seenL, word, nmOf, readF, read_F f, fr]
  | .bin op a b => by
    cases op <;> simp [F.tree, seen, seenL, word, nmOf, readF, readFL, read_F a, read_F b, fr]
  | .all vs f => by simp [F.tree, seen, seenL, word, nmOf, readF, seenL_map, readVars_map, read_F f, fr]
  | .ex vs f => by simp [F.tree, seen, seenL, word, nmOf, readF, seenL_map, readVars_map, read_F f, fr]

/-! ### Statements -/

/-- what becomes of a statement -/
def givenOf (s : Stmt) : Given :=
  match s.head with
  | some (k, _, _, r) => if k = "fof" then .item ⟨r == "conjecture", fr s.frm⟩ else .clause (fr s.frm)
  | none => .item ⟨false, fr s.frm⟩

mutual
theorem quant_T {rl : String → SRole} : ∀ t : T, (∀ u ∈ usesT t, Keeps rl u) → hasQuant t.tree = false
  | .var x, _ => by simp [T.tree, sym, hasQuant]
  | .name q s, _ => by simp [T.tree, sym, hasQuant]
  | .obj s, _ => by simp [T.tree, hasQuant]
  | .num t, _ => by simp [T.tree, hasQuant]
  | .app q f as, h => by
    simp only [T.tree, hasQuant, hasQuantL, sym]
    rw [quant_TL as fun u hu => h u (by simp [usesT, hu])]
    simp
  | .arith op a b, h => by
    simp only [T.tree, hasQuant, hasQuantL, word]
    rw [quant_T a fun u hu => h u (by simp [usesT, hu]), quant_T b fun u hu => h u (by simp [usesT, hu])]
    have := (h (.op op) (by simp [usesT])).1
    simp only [List.mem_cons, List.not_mem_nil, or_false] at this
    rcases this with rfl | rfl | rfl <;> decide
theorem quant_TL {rl : String → SRole} : ∀ ts : List T, (∀ u ∈ usesTL ts, Keeps rl u) → hasQuantL (trees ts) = false
  | [], _ => rfl
  | t :: ts, h => by
    simp only [trees, hasQuantL]
    rw [quant_T t fun u hu => h u (by simp [usesTL, hu]), quant_TL ts fun u hu => h u (by simp [usesTL, hu])]
    rfl
end

/-- there is no quantifier in a clause -/
theorem quant_clause {rl : String → SRole} {f : F} (hc : Clause f) : (∀ u ∈ uses f, Keeps rl u) → hasQuant f.tree = false := by
  induction hc with
  | atom q p as => intro h; simp [F.tree, hasQuant, hasQuantL, sym, quant_TL (rl := rl) as fun u hu => h u (by simp [uses, hu])]
  | prop q p => intro h; simp [F.tree, hasQuant, sym]
  | const b => intro h; simp [F.tree, hasQuant, sym]
  | eq a b => intro h; simp [F.tree, hasQuant, hasQuantL, word, quant_T (rl := rl) a fun u hu => h u (by simp [uses, hu]), quant_T (rl := rl) b fun u hu => h u (by simp [uses, hu])]
  | neq a b => intro h; simp [F.tree, hasQuant, hasQuantL, word, quant_T (rl := rl) a fun u hu => h u (by simp [uses, hu]), quant_T (rl := rl) b fun u hu => h u (by simp [uses, hu])]
  | natom q p as => intro h; simp [F.tree, hasQuant, hasQuantL, sym, word, quant_TL (rl := rl) as fun u hu => h u (by simp [uses, hu])]
  | nprop q p => intro h; simp [F.tree, hasQuant, hasQuantL, sym, word]
  | nconst b => intro h; simp [F.tree, hasQuant, hasQuantL, sym, word]
  | neq' a b => intro h; simp [F.tree, hasQuant, hasQuantL, word, quant_T (rl := rl) a fun u hu => h u (by simp [uses, hu]), quant_T (rl := rl) b fun u hu => h u (by simp [uses, hu])]
  | or _ _ iha ihb =>
    intro h
    simp [F.tree, hasQuant, hasQuantL, word, iha fun u hu => h u (by simp [uses, hu]), ihb fun u hu => h u (by simp [uses, hu])]

theorem isUri_sym (s k : String) (q : Bool) : isUri s (sym q k) = (decide (k = s) && !q) := by
  cases q <;> simp [isUri, sym]
  exact Bool.beq_eq_decide_eq ..

/-- the head of the list for a formula is no URI, if it is not an atom -/
theorem given_bare {f : F} (h : ∀ p as, f = .atom false p as → p ∉ ["fof", "cnf", "include"]) {s : String} {n : Nat} (hs : s ∈ ["fof", "cnf", "include"]) :
    isStmt s n f.tree = false := by
  cases f with
  | atom q p as =>
    simp only [F.tree, isStmt, isUri_sym]
    cases q with
    | true => simp
    | false =>
      have : p ≠ s := by
        rintro rfl
        exact h p as rfl hs
      simp [this]
  | prop q p => simp [F.tree, sym, isStmt]
  | const b => simp [F.tree, sym, isStmt]
  | bin op a b => cases op <;> simp [F.tree, isStmt, isUri, word]
  | _ => simp [F.tree, isStmt, isUri, word]

/-- a statement is taken for what it is -/
theorem given_ok {rl : String → SRole} {s : Stmt} (hs : StmtOk s) (hk : ∀ u ∈ uses s.frm, Keeps rl u) : Gkc.Pb.given s.tree = givenOf s := by
  obtain ⟨hd, f⟩ := s
  cases hd with
  | none =>
    simp only [Ps.Spec.Stmt.tree, Gkc.Pb.given, given_bare hs (s := "include") (by simp), given_bare hs (s := "fof") (by simp),
      given_bare hs (s := "cnf") (by simp), readAs, read_F, givenOf]
    rfl
  | some x =>
    obtain ⟨k, q, n, r⟩ := x
    rcases hs with rfl | ⟨rfl, _, hc⟩
    · simp [Ps.Spec.Stmt.tree, Gkc.Pb.given, isStmt, fofItem, readAs, read_F, givenOf, sym, isUri]
    · simp [Ps.Spec.Stmt.tree, Gkc.Pb.given, isStmt, isUri_sym, cnfItem, quant_clause hc hk, readAs, read_F, givenOf]

/-! ### Truth -/

/-- the name of a symbol -/
def nameOf : Const → String
  | .sym s => s
  | .qsym s => s
  | _ => ""

section
variable {D : Type} {S : Struct D}

open Classical in
/-- the value of a symbol that is a constant -/
noncomputable def cstOf (S : Struct D) : Const → D
  | .int i => if h : ∃ t : String, t.toList.all Char.isDigit = true ∧ (decimal t : Int) = i then S.num (choose h) else S.cst ""
  | .str s => S.obj s
  | k => S.cst (nameOf k)

/-- the structure, for the symbols of the prover -/
noncomputable def foOf (S : Struct D) : FO := ⟨D, cstOf S, fun k => S.fn (nameOf k), fun k => S.pr (nameOf k)⟩

theorem cstOf_num (hS : Normal S) {t : String} (h : t.toList.all Char.isDigit = true) : cstOf S (.int (decimal t)) = S.num t := by
  have hx : ∃ u : String, u.toList.all Char.isDigit = true ∧ (decimal u : Int) = decimal t := ⟨t, h, rfl⟩
  simp only [cstOf, dif_pos hx]
  have := Classical.choose_spec hx
  exact hS.num _ _ this.1 h (by exact_mod_cast this.2)

theorem symbolOf_nm (q : Bool) (s : String) : symbolOf (nm q s) = if q then .qsym s else .sym s := by
  cases q <;> simp [symbolOf, nm]

theorem nameOf_nm (q : Bool) (s : String) : nameOf (symbolOf (nm q s)) = s := by
  rw [symbolOf_nm]
  cases q <;> rfl

theorem op_symbol {o : String} (h : o ∈ ["+", "-", "*"]) : funSym ⟨13, o⟩ = .sym o := by
  simp only [List.mem_cons, List.not_mem_nil, or_false] at h
  rcases h with rfl | rfl | rfl <;> decide +kernel

theorem eq_symbol : symbolOf ⟨13, "="⟩ = .sym "=" := by decide +kernel

theorem funSym_nm {q : Bool} {f : String} (h : NameOk q f) : funSym (nm q f) = if q then .qsym f else .sym (arithName f) := by
  cases q with
  | true =>
    have := h.2 rfl
    simp [funSym, nm, symbolOf]
  | false =>
    simp only [funSym, nm, symbolOf, arithName, Bool.false_eq_true, if_false, true_or, true_and]
    split
    · rfl
    · split
      · rfl
      · split
        · rfl
        · split
          · rfl
          · simp

theorem var_isVar {x : String} (h : Js.Spec.capital x = true) : isVar exVar (uri x) = true := by
  unfold Js.Spec.capital at h
  simp only [isVar, uri, varStr, exVar]
  cases e : x.toList with
  | nil => simp [e] at h
  | cons c cs =>
    simp only [e, decide_eq_true_eq] at h
    have h1 := h.1
    have h2 := h.2
    simp only [Char.le_def] at h1 h2
    simp [Char.isUpper]
    left
    exact ⟨h1, h2⟩

theorem name_isVar {q : Bool} {s : String} (h : NameOk q s) : isVar exVar (nm q s) = false := by
  cases q with
  | true => simp [isVar, nm]
  | false =>
    have := h.1 rfl
    simp [isVar, nm, exVar, this]

variable {rl : String → SRole}

/-- a symbol of the prover means what the name means in this use -/
def Agree (A : Str D) (S : Struct D) : Use → Prop
  | .var x => Js.Spec.capital x = true
  | .cst q s => isVar exVar (nm q s) = false ∧ A.cst (symbolOf (nm q s)) = S.cst s
  | .obj s => A.cst (.str s) = S.obj s
  | .num t => A.cst (.int (decimal t)) = S.num t
  | .fn q f => A.fn (funSym (nm q f)) = S.fn f
  | .op o => A.fn (funSym ⟨13, o⟩) = S.fn o
  | .pr q p => A.pr (symbolOf (nm q p)) = S.pr p
  | .prop q p => A.pr (symbolOf (nm q p)) [] = S.pr p []

mutual
theorem ev_T {A : Str D} {τ : Nm → D} (hτ : A.Val exVar τ) : ∀ t : T, (∀ u ∈ usesT t, Agree A S u) → A.fint.ev τ (ft t) = S.ev (fun x => τ (uri x)) t
  | .var x, _ => rfl
  | .name q s, h => by
    have k := h (.cst q s) (by simp [usesT])
    have : τ (nm q s) = A.cst (symbolOf (nm q s)) := hτ _ k.1
    simp only [ft, FInt.ev, this, Struct.ev, k.2]
  | .obj s, h => by
    have k : A.cst (.str s) = S.obj s := h (.obj s) (by simp [usesT])
    have : τ ⟨207, s⟩ = A.cst (symbolOf ⟨207, s⟩) := hτ _ (by simp [isVar])
    simp only [ft, FInt.ev, this, Struct.ev]
    exact k
  | .num t, h => by
    have k : A.cst (.int (decimal t)) = S.num t := h (.num t) (by simp [usesT])
    have : τ ⟨3, t⟩ = A.cst (symbolOf ⟨3, t⟩) := hτ _ (by simp [isVar])
    simp only [ft, FInt.ev, this, Struct.ev]
    exact k
  | .app q f as, h => by
    have k : A.fn (funSym (nm q f)) = S.fn f := h (.fn q f) (by simp [usesT])
    simp only [ft, FInt.ev, Struct.ev]
    rw [ev_TL hτ as fun u hu => h u (by simp [usesT, hu]), ← k]
    rfl
  | .arith o a b, h => by
    have k : A.fn (funSym ⟨13, o⟩) = S.fn o := h (.op o) (by simp [usesT])
    simp only [ft, FInt.ev, FInt.evL, Struct.ev]
    rw [ev_T hτ a fun u hu => h u (by simp [usesT, hu]), ev_T hτ b fun u hu => h u (by simp [usesT, hu]), ← k]
    rfl
theorem ev_TL {A : Str D} {τ : Nm → D} (hτ : A.Val exVar τ) : ∀ ts : List T, (∀ u ∈ usesTL ts, Agree A S u) → A.fint.evL τ (ftL ts) = S.evL (fun x => τ (uri x)) ts
  | [], _ => rfl
  | t :: ts, h => by
    simp only [ftL, FInt.evL, Struct.evL]
    rw [ev_T hτ t fun u hu => h u (by simp [usesTL, hu]), ev_TL hτ ts fun u hu => h u (by simp [usesTL, hu])]
end

/-- the symbols of the logic mean the same -/
structure Link (A : Str D) (S : Struct D) : Prop where
  eq : A.pr (.sym "=") = S.pr "="
  tt : A.pr (.sym "$true") []
  ff : ¬ A.pr (.sym "$false") []

/-- other values for some variables -/
def upd (vs : List String) (v : String → D) (τ : Nm → D) (n : Nm) : D := if n ∈ vs.map uri then v n.str else τ n

theorem upd_val {vs : List String} {v : String → D} {τ : Nm → D} {A : Str D} (hv : ∀ x ∈ vs, Js.Spec.capital x = true) (hτ : A.Val exVar τ) :
    A.Val exVar (upd vs v τ) := by
  intro n hn
  unfold upd
  rw [if_neg, hτ n hn]
  intro hm
  obtain ⟨x, hx, rfl⟩ := List.mem_map.1 hm
  rw [var_isVar (hv x hx)] at hn
  cases hn

theorem variant_val {vs : List String} {τ τ' : Nm → D} {A : Str D} (hv : ∀ x ∈ vs, Js.Spec.capital x = true) (hτ : A.Val exVar τ)
    (h : Variant (vs.map uri) τ τ') : A.Val exVar τ' := by
  intro n hn
  rw [h n, hτ n hn]
  intro hm
  obtain ⟨x, hx, rfl⟩ := List.mem_map.1 hm
  rw [var_isVar (hv x hx)] at hn
  cases hn

theorem mem_uri {vs : List String} {x : String} : uri x ∈ vs.map uri ↔ x ∈ vs := by
  constructor
  · intro h
    obtain ⟨y, hy, e⟩ := List.mem_map.1 h
    cases e
    exact hy
  · exact fun h => List.mem_map.2 ⟨x, h, rfl⟩

theorem upd_uri {vs : List String} {v : String → D} {τ : Nm → D} (h : ∀ x, x ∉ vs → v x = τ (uri x)) : (fun x => upd vs v τ (uri x)) = v := by
  funext x
  unfold upd
  by_cases hx : x ∈ vs
  · rw [if_pos (mem_uri.2 hx)]; rfl
  · rw [if_neg (mt mem_uri.1 hx), h x hx]

/-- the formula for the clausifier means what the formula means -/
theorem holds_F {A : Str D} (hL : Link A S) : ∀ (f : F) {τ : Nm → D}, A.Val exVar τ → (∀ u ∈ uses f, Agree A S u) →
    (A.fint.holds τ (fr f) ↔ S.means (fun x => τ (uri x)) f)
  | .atom q p as, τ, hτ, h => by
    have k : A.pr (symbolOf (nm q p)) = S.pr p := h (.pr q p) (by simp [uses])
    simp only [fr, FInt.holds, FInt.atom, Struct.means]
    rw [ev_TL hτ as fun u hu => h u (by simp [uses, hu]), ← k]
    exact Iff.rfl
  | .prop q p, τ, hτ, h => by
    have k : A.pr (symbolOf (nm q p)) [] = S.pr p [] := h (.prop q p) (by simp [uses])
    simp only [fr, FInt.holds, FInt.atom, Struct.means]
    rw [← k]
    exact Iff.rfl
  | .const b, τ, hτ, h => by
    cases b with
    | true => exact iff_of_true hL.tt rfl
    | false => exact iff_of_false hL.ff (by simp [Struct.means])
  | .eq a b, τ, hτ, h => by
    simp only [fr, FInt.holds, FInt.atom, FInt.evL, Struct.means]
    rw [ev_T hτ a fun u hu => h u (by simp [uses, hu]), ev_T hτ b fun u hu => h u (by simp [uses, hu]), ← hL.eq]
    show A.pr (symbolOf ⟨13, "="⟩) _ ↔ _
    rw [eq_symbol]
  | .neq a b, τ, hτ, h => by
    simp only [fr, FInt.holds, FInt.atom, FInt.evL, Struct.means]
    rw [ev_T hτ a fun u hu => h u (by simp [uses, hu]), ev_T hτ b fun u hu => h u (by simp [uses, hu]), ← hL.eq]
    show ¬ A.pr (symbolOf ⟨13, "="⟩) _ ↔ _
    rw [eq_symbol]
  | .neg f, τ, hτ, h => by
    simp only [fr, FInt.holds, Struct.means]
    exact not_congr (holds_F hL f hτ h)
  | .bin op a b, τ, hτ, h => by
    have ia := holds_F hL a hτ fun u hu => h u (by simp [uses, hu])
    have ib := holds_F hL b hτ fun u hu => h u (by simp [uses, hu])
    cases op <;>
      simp only [fr, FInt.holds, FInt.holdsAll, FInt.holdsAny, FInt.holdsImp, Struct.means, Op.holds, ia, ib, and_true, or_false]
  | .all vs f, τ, hτ, h => by
    have hv : ∀ x ∈ vs, Js.Spec.capital x = true := fun x hx => h (.var x) (by simp [uses, hx])
    have hf : ∀ u ∈ uses f, Agree A S u := fun u hu => h u (by simp [uses, hu])
    simp only [fr, FInt.holds, Struct.means]
    constructor
    · intro H v hx
      have := (holds_F hL f (upd_val hv hτ) hf).1 (H (upd vs v τ) fun n hn => if_neg hn)
      exact upd_uri hx ▸ this
    · intro H τ' hx
      exact (holds_F hL f (variant_val hv hτ hx) hf).2 (H _ fun x hn => hx _ (mt mem_uri.1 hn))
  | .ex vs f, τ, hτ, h => by
    have hv : ∀ x ∈ vs, Js.Spec.capital x = true := fun x hx => h (.var x) (by simp [uses, hx])
    have hf : ∀ u ∈ uses f, Agree A S u := fun u hu => h u (by simp [uses, hu])
    simp only [fr, FInt.holds, Struct.means]
    constructor
    · rintro ⟨τ', hx, H⟩
      exact ⟨_, fun x hn => hx _ (mt mem_uri.1 hn), (holds_F hL f (variant_val hv hτ hx) hf).1 H⟩
    · rintro ⟨v, hx, H⟩
      exact ⟨upd vs v τ, fun n hn => if_neg hn, (holds_F hL f (upd_val hv hτ) hf).2 ((upd_uri hx).symm ▸ H)⟩

theorem funSym_name {q : Bool} {f : String} (h : NameOk q f) : nameOf (funSym (nm q f)) = arithName f := by
  rw [funSym_nm h]
  cases q with
  | false => rfl
  | true =>
    have e := h.2 rfl
    simp only [List.mem_cons, List.not_mem_nil, or_false, not_or] at e
    show f = arithName f
    simp [arithName, e]

theorem agree (hS : Normal S) : ∀ {u : Use}, Keeps rl u → Agree (foOf S).str S u
  | .var x, h => h
  | .cst q s, h => ⟨name_isVar h.1, by
    show cstOf S (symbolOf (nm q s)) = S.cst s
    rw [symbolOf_nm]
    cases q <;> rfl⟩
  | .obj s, h => rfl
  | .num t, h => cstOf_num hS h.2.1
  | .fn q f, h => by
    show S.fn (nameOf (funSym (nm q f))) = S.fn f
    rw [funSym_name h.1, hS.arith]
  | .op o, h => by
    show S.fn (nameOf (funSym ⟨13, o⟩)) = S.fn o
    rw [op_symbol h.1]
    rfl
  | .pr q p, h => by
    show S.pr (nameOf (symbolOf (nm q p))) = S.pr p
    rw [nameOf_nm]
  | .prop q p, h => by
    show S.pr (nameOf (symbolOf (nm q p))) [] = S.pr p []
    rw [nameOf_nm]

theorem link (hS : Normal S) : Link (foOf S).str S := ⟨rfl, hS.tt, hS.ff⟩
end

/-! ### What the clausifier assumes -/

section
variable {rl : String → SRole}

/-- the role of a symbol -/
def sgOf (rl : String → SRole) : Const → SRole
  | .sym s => rl s
  | .qsym s => rl s
  | .oth _ => .unused
  | _ => .cnst

theorem Sig.fresh (h : Sig rl) (sn nr : Nat) : Fresh sn nr (sgOf rl) := by
  rintro s (⟨j, _, rfl⟩ | ⟨j, _, rfl⟩)
  · exact h.sk j
  · exact h.df j

theorem two_F : ∀ f : F, TwoArg (fr f)
  | .atom _ _ _ => .at _
  | .prop _ _ => .at _
  | .const _ => .at _
  | .eq _ _ => .at _
  | .neq _ _ => .neg (.at _)
  | .neg f => .neg (two_F f)
  | .bin op a b => by
    have ha := two_F a
    have hb := two_F b
    cases op
    · exact .and ha hb
    · exact .or ha hb
    all_goals first | exact .imp ha hb | exact .imp hb ha | exact .eqv ha hb | exact .neg (.eqv ha hb) | exact .neg (.or ha hb) | exact .neg (.and ha hb)
  | .all _ f => .all _ (two_F f)
  | .ex _ f => .ex _ (two_F f)

theorem bound_F {n : Nm} : ∀ f : F, boundIn n (fr f) → ∃ x, Use.var x ∈ uses f ∧ n = uri x
  | .atom _ _ _, h => h.elim
  | .prop _ _, h => h.elim
  | .const _, h => h.elim
  | .eq _ _, h => h.elim
  | .neq _ _, h => h.elim
  | .neg f, h => bound_F f h
  | .bin op a b, h => by
    have : boundIn n (fr a) ∨ boundIn n (fr b) := by
      cases op <;> simp only [fr, boundIn, boundInL, or_false] at h
      case rimp => exact h.symm
      all_goals exact h
    rcases this with h | h
    · obtain ⟨x, h1, h2⟩ := bound_F a h
      exact ⟨x, by simp [uses, h1], h2⟩
    · obtain ⟨x, h1, h2⟩ := bound_F b h
      exact ⟨x, by simp [uses, h1], h2⟩
  | .all vs f, h => by
    rcases h with h | h
    · obtain ⟨x, h1, h2⟩ := List.mem_map.1 h
      exact ⟨x, by simp [uses, h1], h2.symm⟩
    · obtain ⟨x, h1, h2⟩ := bound_F f h
      exact ⟨x, by simp [uses, h1], h2⟩
  | .ex vs f, h => by
    rcases h with h | h
    · obtain ⟨x, h1, h2⟩ := List.mem_map.1 h
      exact ⟨x, by simp [uses, h1], h2.symm⟩
    · obtain ⟨x, h1, h2⟩ := bound_F f h
      exact ⟨x, by simp [uses, h1], h2⟩

/-- the names that come from the uses -/
def Nam (us : List Use) (n : Nm) : Prop :=
  (∃ x, .var x ∈ us ∧ n = uri x) ∨ (∃ q s, (.cst q s ∈ us ∨ .fn q s ∈ us ∨ .pr q s ∈ us ∨ .prop q s ∈ us) ∧ n = nm q s) ∨
  (∃ s, .obj s ∈ us ∧ n = ⟨207, s⟩) ∨ (∃ t, .num t ∈ us ∧ n = ⟨3, t⟩) ∨ n.ty = 13 ∧ n.str ∈ ["+", "-", "*", "="] ∨ n = uri "$true" ∨ n = uri "$false"

theorem Nam.mono {us us' : List Use} (h : ∀ u ∈ us, u ∈ us') {n : Nm} : Nam us n → Nam us' n := by
  rintro (⟨x, h1, h2⟩ | ⟨q, s, h1, h2⟩ | ⟨s, h1, h2⟩ | ⟨t, h1, h2⟩ | h1)
  · exact .inl ⟨x, h _ h1, h2⟩
  · exact .inr (.inl ⟨q, s, h1.imp (h _) fun h1 => h1.imp (h _) fun h1 => h1.imp (h _) (h _), h2⟩)
  · exact .inr (.inr (.inl ⟨s, h _ h1, h2⟩))
  · exact .inr (.inr (.inr (.inl ⟨t, h _ h1, h2⟩)))
  · exact .inr (.inr (.inr (.inr h1)))

mutual
theorem nam_T {n : Nm} : ∀ t : T, (∀ u ∈ usesT t, Keeps rl u) → n ∈ namesT (ft t) → Nam (usesT t) n
  | .var x, _, h => .inl ⟨x, by simp [usesT], by simpa [ft, namesT] using h⟩
  | .name q s, _, h => .inr (.inl ⟨q, s, .inl (by simp [usesT]), by simpa [ft, namesT] using h⟩)
  | .obj s, _, h => .inr (.inr (.inl ⟨s, by simp [usesT], by simpa [ft, namesT] using h⟩))
  | .num t, _, h => .inr (.inr (.inr (.inl ⟨t, by simp [usesT], by simpa [ft, namesT] using h⟩)))
  | .app q f as, k, h => by
    simp only [ft, namesT, List.mem_cons] at h
    rcases h with h | h
    · exact .inr (.inl ⟨q, f, .inr (.inl (by simp [usesT])), h⟩)
    · exact (nam_TL as (fun u hu => k u (by simp [usesT, hu])) h).mono fun u hu => by simp [usesT, hu]
  | .arith o a b, k, h => by
    simp only [ft, namesT, namesTL, List.mem_cons, List.mem_append, List.not_mem_nil, or_false] at h
    rcases h with h | h | h
    · subst h
      have := (k (.op o) (by simp [usesT])).1
      refine .inr (.inr (.inr (.inr (.inl ⟨rfl, ?_⟩))))
      simp only [List.mem_cons, List.not_mem_nil, or_false] at this ⊢
      exact this.imp id fun h => h.imp id .inl
    · exact (nam_T a (fun u hu => k u (by simp [usesT, hu])) h).mono fun u hu => by simp [usesT, hu]
    · exact (nam_T b (fun u hu => k u (by simp [usesT, hu])) h).mono fun u hu => by simp [usesT, hu]
theorem nam_TL {n : Nm} : ∀ ts : List T, (∀ u ∈ usesTL ts, Keeps rl u) → n ∈ namesTL (ftL ts) → Nam (usesTL ts) n
  | [], _, h => by cases h
  | t :: ts, k, h => by
    simp only [ftL, namesTL, List.mem_append] at h
    rcases h with h | h
    · exact (nam_T t (fun u hu => k u (by simp [usesTL, hu])) h).mono fun u hu => by simp [usesTL, hu]
    · exact (nam_TL ts (fun u hu => k u (by simp [usesTL, hu])) h).mono fun u hu => by simp [usesTL, hu]
end

theorem nam_eq {n : Nm} {a b : T} (k : ∀ u ∈ usesT a ++ usesT b, Keeps rl u) (h : n ∈ namesT (.app ⟨13, "="⟩ [ft a, ft b])) : Nam (usesT a ++ usesT b) n := by
  simp only [namesT, namesTL, List.mem_cons, List.mem_append, List.not_mem_nil, or_false] at h
  rcases h with h | h | h
  · subst h
    exact .inr (.inr (.inr (.inr (.inl ⟨rfl, by simp⟩))))
  · exact (nam_T a (fun u hu => k u (by simp [hu])) h).mono fun u hu => by simp [hu]
  · exact (nam_T b (fun u hu => k u (by simp [hu])) h).mono fun u hu => by simp [hu]

theorem nam_F {n : Nm} : ∀ f : F, (∀ u ∈ uses f, Keeps rl u) → freeIn n (fr f) → Nam (uses f) n
  | .atom q p as, k, h => by
    simp only [fr, freeIn, namesT, List.mem_cons] at h
    rcases h with h | h
    · exact .inr (.inl ⟨q, p, .inr (.inr (.inl (by simp [uses]))), h⟩)
    · exact (nam_TL as (fun u hu => k u (by simp [uses, hu])) h).mono fun u hu => by simp [uses, hu]
  | .prop q p, k, h => .inr (.inl ⟨q, p, .inr (.inr (.inr (by simp [uses]))), by simpa [fr, freeIn, namesT] using h⟩)
  | .const b, k, h => by
    simp only [fr, freeIn, namesT, List.mem_cons, List.not_mem_nil, or_false] at h
    subst h
    cases b
    · exact .inr (.inr (.inr (.inr (.inr (.inr rfl)))))
    · exact .inr (.inr (.inr (.inr (.inr (.inl rfl)))))
  | .eq a b, k, h => nam_eq k h
  | .neq a b, k, h => nam_eq k h
  | .neg f, k, h => nam_F f k h
  | .bin op a b, k, h => by
    have : freeIn n (fr a) ∨ freeIn n (fr b) := by
      cases op <;> simp only [fr, freeIn, freeInL, or_false] at h
      case rimp => exact h.symm
      all_goals exact h
    rcases this with h | h
    · exact (nam_F a (fun u hu => k u (by simp [uses, hu])) h).mono fun u hu => by simp [uses, hu]
    · exact (nam_F b (fun u hu => k u (by simp [uses, hu])) h).mono fun u hu => by simp [uses, hu]
  | .all vs f, k, h => (nam_F f (fun u hu => k u (by simp [uses, hu])) h.2).mono fun u hu => by simp [uses, hu]
  | .ex vs f, k, h => (nam_F f (fun u hu => k u (by simp [uses, hu])) h.2).mono fun u hu => by simp [uses, hu]

theorem nameIn_F {n : Nm} {f : F} (k : ∀ u ∈ uses f, Keeps rl u) (h : nameIn n (fr f)) : Nam (uses f) n :=
  h.elim (nam_F f k) fun h => .inl (bound_F f h)

theorem Nam.ok {us : List Use} (k : ∀ u ∈ us, Keeps rl u) {q : Bool} {s : String} (h : .cst q s ∈ us ∨ .fn q s ∈ us ∨ .pr q s ∈ us ∨ .prop q s ∈ us) : NameOk q s := by
  rcases h with h | h | h | h
  · exact (k _ h).1
  · exact (k _ h).1
  · exact (k _ h).1
  · exact (k _ h).1

/-- a name that the clausifier takes for a variable -/
theorem Nam.var {us : List Use} (k : ∀ u ∈ us, Keeps rl u) {n : Nm} (h : Nam us n) (hv : isVar exVar n = true) : ∃ x, .var x ∈ us ∧ n = uri x := by
  rcases h with h | ⟨q, s, h, rfl⟩ | ⟨s, _, rfl⟩ | ⟨t, _, rfl⟩ | ⟨h, _⟩ | rfl | rfl
  · exact h
  · rw [name_isVar (Nam.ok k h)] at hv
    cases hv
  · simp [isVar] at hv
  · simp [isVar] at hv
  · simp [isVar, h] at hv
  · exact absurd hv (by decide +kernel)
  · exact absurd hv (by decide +kernel)

theorem Nam.ty {us : List Use} {n : Nm} (h : Nam us n) (h1 : n.ty ≠ 7) :
    (∃ s, (.cst true s ∈ us ∨ .fn true s ∈ us ∨ .pr true s ∈ us ∨ .prop true s ∈ us) ∧ n = nm true s) ∨
    (∃ s, .obj s ∈ us ∧ n = ⟨207, s⟩) ∨ (∃ t, .num t ∈ us ∧ n = ⟨3, t⟩) ∨ n.ty = 13 ∧ n.str ∈ ["+", "-", "*", "="] := by
  rcases h with ⟨x, _, rfl⟩ | ⟨q, s, h, rfl⟩ | h | h | h | rfl | rfl
  · exact absurd rfl h1
  · cases q
    · exact absurd rfl h1
    · exact .inl ⟨s, h, rfl⟩
  · exact .inr (.inl h)
  · exact .inr (.inr (.inl h))
  · exact .inr (.inr (.inr h))
  · exact absurd rfl h1
  · exact absurd rfl h1

theorem Nam.okv {us : List Use} {n : Nm} (h : Nam us n) (h1 : okVar n = true) : n.ty = 7 := by
  by_contra h7
  rcases h.ty h7 with ⟨s, _, rfl⟩ | ⟨s, _, rfl⟩ | ⟨t, _, rfl⟩ | ⟨h, _⟩
  · simp [okVar, nm] at h1
  · simp [okVar] at h1
  · simp [okVar] at h1
  · simp [okVar, h] at h1

theorem capital_head {x : String} (h : Js.Spec.capital x = true) : ∃ c cs, x.toList = c :: cs ∧ c.isDigit = false ∧ c ∉ ['+', '-', '*', '='] := by
  unfold Js.Spec.capital at h
  cases e : x.toList with
  | nil => simp [e] at h
  | cons c cs =>
    simp only [e, decide_eq_true_eq] at h
    have h1 := h.1
    have h2 := h.2
    simp only [Char.le_def, UInt32.le_iff_toNat_le] at h1 h2
    refine ⟨c, cs, rfl, ?_, ?_⟩
    · simp only [Char.isDigit, Bool.and_eq_false_iff, decide_eq_false_iff_not, UInt32.le_iff_toNat_le]
      right
      have : (65 : Nat) ≤ c.val.toNat := h1
      show ¬ c.val.toNat ≤ 57
      omega
    · simp only [List.mem_cons, List.not_mem_nil, or_false]
      rintro (rfl | rfl | rfl | rfl) <;> exact absurd h1 (by decide)

theorem okName_nm {q : Bool} {s : String} (h : NameOk q s) : OkName (nm q s) := by
  cases q with
  | false => exact .inl rfl
  | true =>
    have := h.2 rfl
    simp only [List.mem_cons, List.not_mem_nil, or_false, not_or] at this
    exact .inr (.inl ⟨.inl rfl, this.1, this.2.1⟩)

theorem okName_op {o : String} (h : o ∈ ["+", "-", "*", "="]) : OkName ⟨13, o⟩ := by
  refine .inr (.inr (.inr ⟨rfl, fun k => ?_⟩))
  have e1 : (skName k).str = "$sk" ++ toString k := rfl
  have e2 : (dfName k).str = "$df" ++ toString k := rfl
  simp only [List.mem_cons, List.not_mem_nil, or_false] at h
  constructor
  · intro e
    have e : o = (skName k).str := e
    rw [e1] at e
    have := congrArg String.toList e
    rw [String.toList_append] at this
    rcases h with rfl | rfl | rfl | rfl <;> simp at this
  · intro e
    have e : o = (dfName k).str := e
    rw [e2] at e
    have := congrArg String.toList e
    rw [String.toList_append] at this
    rcases h with rfl | rfl | rfl | rfl <;> simp at this

theorem noOp_nm {q : Bool} {s : String} : NoOp (nm q s) := by
  intro h
  cases q <;> simp [nm] at h

theorem sg_nm {q : Bool} {s : String} : sgOf rl (symbolOf (nm q s)) = rl s := by
  rw [symbolOf_nm]
  cases q <;> rfl

mutual
theorem wt_T : ∀ t : T, (∀ u ∈ usesT t, Keeps rl u) → WtFT exVar (sgOf rl) (ft t)
  | .var x, k => .inl (var_isVar (k (.var x) (by simp [usesT])))
  | .name q s, k => by
    have := k (.cst q s) (by simp [usesT])
    exact .inr ⟨okName_nm this.1, noOp_nm, sg_nm.trans this.2⟩
  | .obj s, k => by
    have : s ∉ _ := k (.obj s) (by simp [usesT])
    simp only [List.mem_cons, List.not_mem_nil, or_false, not_or] at this
    exact .inr ⟨.inr (.inl ⟨.inr rfl, this.2.1, this.2.2⟩), fun h => absurd h (by simp), rfl⟩
  | .num t, k => by
    have := k (.num t) (by simp [usesT])
    exact .inr ⟨.inr (.inr (.inl ⟨rfl, this⟩)), fun h => absurd h (by simp), rfl⟩
  | .app q f as, k => by
    have h := k (.fn q f) (by simp [usesT])
    refine ⟨okName_nm h.1, name_isVar h.1, ⟨h.2.2, ?_⟩, ?_, wt_TL as fun u hu => k u (by simp [usesT, hu])⟩
    · cases q with
      | false => exact .inl rfl
      | true =>
        refine .inr (.inr fun hm => h.1.2 rfl ?_)
        simp only [nm, List.mem_cons, List.not_mem_nil, or_false] at hm ⊢
        exact .inr (.inr hm)
    · rw [funSym_nm h.1]
      cases q with
      | false => exact h.2.1
      | true =>
        have e := h.1.2 rfl
        simp only [List.mem_cons, List.not_mem_nil, or_false, not_or] at e
        have : arithName f = f := by simp [arithName, e]
        have h2 := h.2.1
        rw [this] at h2
        exact h2
  | .arith o a b, k => by
    have h := k (.op o) (by simp [usesT])
    have h1 : o ∈ ["+", "-", "*"] := h.1
    refine ⟨okName_op ?_, by simp [isVar], ⟨?_, .inr (.inl rfl)⟩, ?_, wt_T a fun u hu => k u (by simp [usesT, hu]), wt_T b fun u hu => k u (by simp [usesT, hu]), trivial⟩
    · simp only [List.mem_cons, List.not_mem_nil, or_false] at h1 ⊢
      exact h1.imp id fun h => h.imp id .inl
    · rintro rfl
      simp at h1
    · rw [op_symbol h.1]
      exact h.2
theorem wt_TL : ∀ ts : List T, (∀ u ∈ usesTL ts, Keeps rl u) → WtFTL exVar (sgOf rl) (ftL ts)
  | [], _ => trivial
  | t :: ts, k => ⟨wt_T t fun u hu => k u (by simp [usesTL, hu]), wt_TL ts fun u hu => k u (by simp [usesTL, hu])⟩
end

theorem wt_eq (hS : Sig rl) {a b : T} (k : ∀ u ∈ usesT a ++ usesT b, Keeps rl u) : WtFA exVar (sgOf rl) (.app ⟨13, "="⟩ [ft a, ft b]) := by
  refine ⟨okName_op (by simp), by simp [isVar], ?_, fun _ => rfl, wt_T a fun u hu => k u (by simp [hu]), wt_T b fun u hu => k u (by simp [hu]), trivial⟩
  rw [eq_symbol]
  exact hS.eq

theorem wt_F (hS : Sig rl) : ∀ f : F, (∀ u ∈ uses f, Keeps rl u) → WtF exVar (sgOf rl) (fr f)
  | .atom q p as, k, t, h => by
    cases h
    have h := k (.pr q p) (by simp [uses])
    refine ⟨okName_nm h.1, name_isVar h.1, sg_nm.trans h.2.1, fun e => ?_, wt_TL as fun u hu => k u (by simp [uses, hu])⟩
    rw [symbolOf_nm] at e
    cases q with
    | true => cases e
    | false => exact absurd (Const.sym.inj e) h.2.2
  | .prop q p, k, t, h => by
    cases h
    have h := k (.prop q p) (by simp [uses])
    exact ⟨okName_nm h.1, noOp_nm, name_isVar h.1, sg_nm.trans h.2⟩
  | .const b, k, t, h => by
    cases h
    refine ⟨.inl rfl, fun h => absurd h (by simp [uri]), by cases b <;> decide +kernel, ?_⟩
    cases b
    · exact hS.ff
    · exact hS.tt
  | .eq a b, k, t, h => by cases h; exact wt_eq hS k
  | .neq a b, k, t, h => by cases h; exact wt_eq hS k
  | .neg f, k, t, h => wt_F hS f k t h
  | .bin op a b, k, t, h => by
    have : atomIn t (fr a) ∨ atomIn t (fr b) := by
      cases op <;> simp only [fr, atomIn, atomInL, or_false] at h
      case rimp => exact h.symm
      all_goals exact h
    exact this.elim (wt_F hS a (fun u hu => k u (by simp [uses, hu])) t) (wt_F hS b (fun u hu => k u (by simp [uses, hu])) t)
  | .all vs f, k, t, h => wt_F hS f (fun u hu => k u (by simp [uses, hu])) t h
  | .ex vs f, k, t, h => wt_F hS f (fun u hu => k u (by simp [uses, hu])) t h

theorem cls_F {f : F} (h : Clause f) : Cls (fr f) := by
  induction h with
  | atom | prop | const | eq => exact .lit (.at _)
  | neq | natom | nprop | nconst | neq' => exact .lit (.neg _)
  | or _ _ ia ib => exact .or ia ib

theorem adm_F (hS : Sig rl) {f : F} (k : ∀ u ∈ uses f, Keeps rl u) (hA : Apart f) : Adm exVar (sgOf rl) (fr f) where
  two := two_F f
  bound n h := by
    obtain ⟨x, hx, rfl⟩ := bound_F f h
    exact var_isVar (k _ hx)
  names n m hn hm ho hv e := by
    have kn := nameIn_F k hn
    have km := nameIn_F k hm
    have n7 := kn.okv ho
    have : m.ty = 7 := by
      rcases hv with hv | hv
      · exact km.okv hv
      by_contra m7
      obtain ⟨x, hx, rfl⟩ := kn.var k hv
      have hc : Js.Spec.capital x = true := k _ hx
      obtain ⟨c, cs, hl, hd, hp⟩ := capital_head hc
      have ap := hA x hx
      have e' : m.str = x := e
      rcases km.ty m7 with ⟨s, h, rfl⟩ | ⟨s, h, rfl⟩ | ⟨t, h, rfl⟩ | ⟨_, h⟩
      · have : s = x := e'
        subst this
        rcases h with h | h | h | h
        · exact ap.1 h
        · exact ap.2.2.1 h
        · exact ap.2.2.2.1 h
        · exact ap.2.2.2.2 h
      · have : s = x := e'
        subst this
        exact ap.2.1 h
      · have : t = x := e'
        subst this
        have := (k _ h).2.1
        rw [hl] at this
        simp [hd] at this
      · rw [e'] at h
        simp only [List.mem_cons, List.not_mem_nil, or_false] at h hp
        rcases h with rfl | rfl | rfl | rfl <;> simp at hl <;> exact hp (by simp [← hl.1])
    obtain ⟨a, b⟩ := n
    obtain ⟨a', b'⟩ := m
    simp only at n7 this e
    rw [n7, this, e]
  wt := wt_F hS f k
end

/-! ### From the clauses to the statements -/

/-- the input clauses come from formulas that were clausified and from formulas that were flattened as they are -/
def Given.Clauses (fcs : List FCl) (raw : List Frm) (fc : FCl) : Prop := fc ∈ fcs ∨ ∃ f ∈ raw, ∃ cs, flat f = some cs ∧ fc ∈ cs

theorem refutation {c : VarCfg} {strat : Bool} {fuel sn nr : Nat} {items : List Item} {raw : List Frm} {fcs : List FCl}
    (sg : Const → SRole) (hF : Fresh sn nr sg) (hp : sg (.sym "$pr") = .unused) (htr : sg (.sym "$true") = .prop)
    (hnum : ∀ k, isNumber k → sg k = .cnst) (ha : ∀ it ∈ items, Adm c sg it.frm) (hr : ∀ f ∈ raw, Cnf f ∧ WtF c sg f)
    (hc : Clausifies c strat fuel sn nr items fcs) (wd : Const → Int) (hh m : Term → Nat) (input : List (List ALit))
    (hi : ∀ cl ∈ input, ∃ fc, Given.Clauses fcs raw fc ∧ ∃ ls, buildCl c fc = some ls ∧ NewCl ls cl) (s : PState)
    (h : Run ⟨some, wd, hh, m⟩ ShortActive input s) (hs : s.refuted = true)
    (M : FO) (he : ∀ a b, M.pr (.sym "=") [a, b] ↔ a = b) (h1 : M.pr (.sym "$true") []) (h0 : ¬ M.pr (.sym "$false") [])
    (d0 d1 : M.D) (hd : d0 ≠ d1) (hax : ∀ it ∈ items, it.conj = false → Sat c M.str it.frm) (hraw : ∀ f ∈ raw, Sat c M.str f) :
    ∃ it ∈ items, it.conj = true ∧ ∃ τ, M.str.Val c τ ∧ M.str.fint.holds τ it.frm := by
  by_cases goal : ∃ it ∈ items, it.conj = true ∧ ∃ τ, M.str.Val c τ ∧ M.str.fint.holds τ it.frm
  · exact goal
  exfalso
  have hT : M.str.Truth := ⟨h1, h0⟩
  have adm : ∀ it ∈ items, Adm c sg it.prepared := by
    intro it hm
    have a := ha it hm
    unfold Item.prepared
    split
    · exact ⟨.neg a.two, a.bound, a.names, a.wt⟩
    · exact a
  have sat : ∀ it ∈ items, Sat c M.str it.prepared := by
    intro it hm
    unfold Item.prepared
    split
    · rename_i hcj
      exact fun τ hτ hh => goal ⟨it, hm, hcj, τ, hτ, hh⟩
    · rename_i hcj
      exact hax it hm (by simpa using hcj)
  obtain ⟨sg', x, w, k⟩ := clausifies_ok hc sg hF adm
  obtain ⟨S, o, hS⟩ := k M.str hT sat
  have w' : ∀ fc, Given.Clauses fcs raw fc → FWt c sg' fc := by
    rintro fc (hm | ⟨f, hf, cs, e, hm⟩)
    · exact w fc hm
    · exact ((flat_true (D := Unit) (hr f hf).1 (hr f hf).2 e).1 fc hm).mono hF x
  have hS' : ∀ fc, Given.Clauses fcs raw fc → ∀ τ, S.Val c τ → FCl.Holds S.fint τ fc := by
    rintro fc (hm | ⟨f, hf, cs, e, hm⟩)
    · exact hS fc hm
    · exact (flat_true (hr f hf).1 (hr f hf).2 e).2 S (o.truth hT) ((hraw f hf).off hF (hr f hf).2 o) fc hm
  have old : ∀ q : String, q ∈ ["=", "$true", "$pr"] → ∀ s, New sn nr s → Const.sym q ≠ .sym s := by
    intro q hq s hs e
    refine new_ne hs ?_
    rw [← Const.sym.inj e]
    simp only [List.mem_cons, List.not_mem_nil, or_false] at hq
    rcases hq with rfl | rfl | rfl <;> simp
  have hp' : sg' (.sym "$pr") = .unused := by rw [x _ (old _ (by simp)), hp]
  have htr' : sg' (.sym "$true") = .prop := by rw [x _ (old _ (by simp)), htr]
  have hnum' : ∀ k, isNumber k → clRole sg' k = .cnst := by
    intro k hk
    have : sg' k = sg k := x k (fun s _ e => by subst e; exact hk)
    unfold clRole
    rw [if_neg (by rintro rfl; exact hk), this, hnum k hk]
  have build := fun {fc : FCl} (hm : Given.Clauses fcs raw fc) {Ls} (e : buildCl c fc = some Ls) =>
    buildCl_ok hp' (S.cl_reads hp' hd) htr' (o.truth hT) (w' fc hm) e
  have inp : ∀ cl ∈ input, InputOk (clRole sg') cl := by
    intro cl hcl
    obtain ⟨fc, hm, ls, e, hn⟩ := hi cl hcl
    have key : ∀ l ∈ cl, l.lit ∈ ls := fun l hl => by rw [← hn.1]; exact List.mem_map.2 ⟨l, hl, rfl⟩
    exact ⟨fun l hl => ((build hm e).1 _ (key l hl)).1, fun l hl => ((build hm e).1 _ (key l hl)).2, hn.2⟩
  have eq : ∀ a b, (S.cl sg' d0 d1).pr (.sym "=") [a, b] ↔ a = b := by
    intro a b
    have : (S.cl sg' d0 d1).pr (.sym "=") [a, b] = S.pr (.sym "=") [a, b] := by simp [Str.cl, aTrue, aFalse]
    rw [this, (o (.sym "=") (old _ (by simp))).2.2]
    exact he a b
  have t1 : (S.cl sg' d0 d1).pr aTrue [] := by simp [Str.cl, aTrue, aFalse]
  have t0 : ¬ (S.cl sg' d0 d1).pr aFalse [] := by simp [Str.cl, aFalse]
  obtain ⟨cl, hcl, bad⟩ := C33_refutation_means_unsatisfiable_partial wd hh m (clRole sg') hnum' input inp s h hs
    (S.cl sg' d0 d1) eq t1 t0
  obtain ⟨fc, hm, ls, e, hn⟩ := hi cl hcl
  refine bad ?_
  have : plain cl = ls := hn.1
  rw [this]
  exact (build hm e).2 (hS' fc hm)

/-! ### Files -/

theorem statements_eq {l : Bool} {P : List Stmt} {ts : List Gkc.Ps.Tok} {txt : List Char} (hf : File l P ts) (ht : Text ts txt) :
    ∃ n, ∀ m ≥ n, statements m txt = some (P.map Ps.Spec.Stmt.tree).reverse := by
  obtain ⟨n, h⟩ := Props.Ps.reads hf ht
  refine ⟨n, fun m hm => ?_⟩
  rw [statements, h m hm, Props.Ps.answer]
  by_cases e : P = []
  · simp [e]
  · simp [e]

theorem statements_one {n m : Nat} {txt : List Char} {l l' : List Lst} (h : statements n txt = some l) (h' : statements m txt = some l') : l = l' := by
  have key : ∀ {n m : Nat} {l l' : List Lst}, n ≤ m → statements n txt = some l → statements m txt = some l' → l = l' := by
    intro n m l l' hnm h h'
    cases e : Gkc.Ps.parse n txt with
    | none => rw [statements, e] at h; cases h
    | some o =>
      have : Gkc.Ps.parse m txt = some o := by
        unfold Gkc.Ps.parse at e ⊢
        cases hx : Gkc.Ps.lex txt with
        | none => rw [hx] at e; exact e
        | some x => rw [hx] at e; exact Gkc.Ps.run_more e hnm
      have hs : statements m txt = statements n txt := by rw [statements, statements, e, this]
      rw [hs, h] at h'
      exact Option.some.inj h'
  rcases Nat.le_total n m with hle | hle
  · exact key hle h h'
  · exact (key hle h' h).symm

theorem given_map {rl : String → SRole} {P : List Stmt} (hP : Fine rl P) : (P.map Ps.Spec.Stmt.tree).reverse.map Gkc.Pb.given = (P.map givenOf).reverse := by
  rw [List.map_reverse, List.map_map]
  congr 1
  exact List.map_congr_left fun s hs => given_ok (hP.ok s hs) (hP.keeps s hs)

theorem mem_items {P : List Stmt} {it : Item} (h : it ∈ itemsOf (P.map givenOf).reverse) : ∃ s ∈ P, givenOf s = .item it := by
  simp only [itemsOf, List.mem_filterMap, List.mem_reverse, List.mem_map] at h
  obtain ⟨g, ⟨s, hs, rfl⟩, hg⟩ := h
  refine ⟨s, hs, ?_⟩
  split at hg
  · rename_i e
    rw [e, Option.some.inj hg]
  · cases hg

theorem mem_clauses {P : List Stmt} {f : Frm} (h : f ∈ clausesOf (P.map givenOf).reverse) : ∃ s ∈ P, givenOf s = .clause f := by
  simp only [clausesOf, List.mem_filterMap, List.mem_reverse, List.mem_map] at h
  obtain ⟨g, ⟨s, hs, rfl⟩, hg⟩ := h
  refine ⟨s, hs, ?_⟩
  split at hg
  · rename_i e
    rw [e, Option.some.inj hg]
  · cases hg

theorem givenOf_item {s : Stmt} {it : Item} (h : givenOf s = .item it) : it.frm = fr s.frm ∧ (it.conj = true ↔ Goal s) := by
  unfold givenOf at h
  split at h
  · rename_i k q n r e
    split at h
    · rename_i hk
      cases h
      refine ⟨rfl, ?_⟩
      simp only [Goal, e, hk, Option.some.injEq, Prod.mk.injEq, true_and, beq_iff_eq]
      exact ⟨fun h => ⟨q, n, rfl, rfl, h⟩, fun ⟨_, _, _, _, h⟩ => h⟩
    · cases h
  · rename_i e
    cases h
    exact ⟨rfl, by simp [Goal, e]⟩

theorem givenOf_clause {s : Stmt} {f : Frm} (hs : StmtOk s) (h : givenOf s = .clause f) : f = fr s.frm ∧ Clause s.frm ∧ ¬ Goal s := by
  unfold givenOf at h
  split at h
  · rename_i k q n r e
    split at h
    · cases h
    · rename_i hk
      cases h
      simp only [StmtOk, e] at hs
      rcases hs with hs | hs
      · exact absurd hs hk
      · refine ⟨rfl, hs.2.2, ?_⟩
        rintro ⟨_, _, h⟩
        rw [e] at h
        simp only [Option.some.injEq, Prod.mk.injEq] at h
        exact hk h.1
  · cases h

theorem consequence_core {P : List Stmt} {rl : String → SRole} (hP : Fine rl P) {strat : Bool} {fuel sn nr : Nat} {fcs : List FCl}
    (hc : Clausifies exVar strat fuel sn nr (itemsOf (P.map givenOf).reverse) fcs) (wd : Const → Int) (hh m : Term → Nat) (input : List (List ALit))
    (hi : ∀ cl ∈ input, ∃ fc, Given.Clauses fcs (clausesOf (P.map givenOf).reverse) fc ∧ ∃ ls, buildCl exVar fc = some ls ∧ NewCl ls cl) (s : PState)
    (h : Run ⟨some, wd, hh, m⟩ ShortActive input s) (hs : s.refuted = true)
    {D : Type} (S : Struct D) (hS : Normal S) (hax : ∀ st ∈ P, ¬ Goal st → ∀ v, S.means v st.frm) :
    ∃ st ∈ P, Goal st ∧ ∃ v, S.means v st.frm := by
  obtain ⟨d0, d1, hd⟩ := hS.two
  have sat : ∀ st ∈ P, ¬ Goal st → Sat exVar (foOf S).str (fr st.frm) := fun st hm hg τ hτ =>
    (holds_F (link hS) st.frm hτ fun u hu => agree hS (hP.keeps st hm u hu)).2 (hax st hm hg _)
  obtain ⟨it, hit, hcj, τ, hτ, hold⟩ := refutation (sgOf rl) (hP.sig.fresh sn nr) hP.sig.pr hP.sig.tt (by rintro (_ | _ | _) h <;> first | rfl | cases h)
    (fun it hm => by
      obtain ⟨st, hst, e⟩ := mem_items hm
      rw [(givenOf_item e).1]
      exact adm_F hP.sig (hP.keeps st hst) (hP.apart st hst))
    (fun f hm => by
      obtain ⟨st, hst, e⟩ := mem_clauses hm
      obtain ⟨e1, e2, _⟩ := givenOf_clause (hP.ok st hst) e
      rw [e1]
      exact ⟨.cls (cls_F e2), wt_F hP.sig _ (hP.keeps st hst)⟩)
    hc wd hh m input hi s h hs (foOf S) hS.eq hS.tt hS.ff d0 d1 hd
    (fun it hm hj => by
      obtain ⟨st, hst, e⟩ := mem_items hm
      obtain ⟨e1, e2⟩ := givenOf_item e
      rw [e1]
      exact sat st hst fun g => by rw [e2.2 g] at hj; cases hj)
    (fun f hm => by
      obtain ⟨st, hst, e⟩ := mem_clauses hm
      obtain ⟨e1, _, e3⟩ := givenOf_clause (hP.ok st hst) e
      rw [e1]
      exact sat st hst e3)
  obtain ⟨st, hst, e⟩ := mem_items hit
  obtain ⟨e1, e2⟩ := givenOf_item e
  rw [e1] at hold
  exact ⟨st, hst, e2.1 hcj, _, (holds_F (link hS) st.frm hτ fun u hu => agree hS (hP.keeps st hst u hu)).1 hold⟩

/-- **C67 (partial).** A text says the statements `P`, in the notation of TPTP.  The text is scanned and parsed, the statements become formulas
for the clausifier or clauses (`given`), the formulas become clauses (`Clausifies`), the clauses go to the saturation loop, and the loop reports
a refutation.  Then in every structure with at least two elements in which all statements that are not conjectures are true, some conjecture
is true for some values of its free variables.  For one closed conjecture: it follows from the other statements.

Partial: as C40 (two elements, no computable symbols evaluated, at most 256 literals), each name in one role, integers below 2^31, no `include`,
no annotations after the formula, no `cnf` conjectures (see the negative theorems below). -/
theorem C67_proof_means_consequence_partial {l : Bool} {P : List Stmt} {ts : List Gkc.Ps.Tok} {txt : List Char} {rl : String → SRole}
    (hf : File l P ts) (ht : Text ts txt) (hP : Fine rl P)
    {n : Nat} {ls : List Lst} (hl : statements n txt = some ls) {strat : Bool} {fuel sn nr : Nat} {fcs : List FCl}
    (hc : Clausifies exVar strat fuel sn nr (itemsOf (ls.map Gkc.Pb.given)) fcs) (wd : Const → Int) (hh m : Term → Nat) (input : List (List ALit))
    (hi : ∀ cl ∈ input, ∃ fc, Given.Clauses fcs (clausesOf (ls.map Gkc.Pb.given)) fc ∧ ∃ ls, buildCl exVar fc = some ls ∧ NewCl ls cl) (s : PState)
    (h : Run ⟨some, wd, hh, m⟩ ShortActive input s) (hs : s.refuted = true)
    {D : Type} (S : Struct D) (hS : Normal S) (hax : ∀ st ∈ P, ¬ Goal st → ∀ v, S.means v st.frm) :
    ∃ st ∈ P, Goal st ∧ ∃ v, S.means v st.frm := by
  obtain ⟨n', hn'⟩ := statements_eq hf ht
  cases statements_one hl (hn' n' (Nat.le_refl _))
  rw [given_map hP] at hc hi
  exact consequence_core hP hc wd hh m input hi s h hs S hS hax

/-- **C67, every statement is read.** The text is accepted.  Each statement becomes exactly one formula, in the opposite order; the formula means what
the statement says; and it is marked as conjecture exactly if the statement is one. -/
theorem C67_every_statement_is_read {l : Bool} {P : List Stmt} {ts : List Gkc.Ps.Tok} {txt : List Char} {rl : String → SRole}
    (hf : File l P ts) (ht : Text ts txt) (hP : Fine rl P) : ∃ n, ∀ m ≥ n, ∃ ls, statements m txt = some ls ∧
      List.Forall₂ (fun x st => ∃ g, (Gkc.Pb.given x = .item ⟨true, g⟩ ∧ Goal st ∨ Gkc.Pb.given x = .item ⟨false, g⟩ ∧ ¬ Goal st ∨ Gkc.Pb.given x = .clause g ∧ ¬ Goal st) ∧
        ∀ (D : Type) (S : Struct D), Normal S → ∀ τ, (foOf S).str.Val exVar τ → ((foOf S).str.fint.holds τ g ↔ S.means (fun x => τ (uri x)) st.frm)) ls P.reverse := by
  obtain ⟨n, hn⟩ := statements_eq hf ht
  refine ⟨n, fun m hm => ⟨_, hn m hm, ?_⟩⟩
  rw [← List.map_reverse, List.forall₂_map_left_iff]
  refine List.forall₂_same.2 fun st hst => ?_
  have hst : st ∈ P := List.mem_reverse.1 hst
  refine ⟨fr st.frm, ?_, fun D S hS τ hτ => holds_F (link hS) st.frm hτ fun u hu => agree hS (hP.keeps st hst u hu)⟩
  rw [given_ok (hP.ok st hst) (hP.keeps st hst)]
  cases e : givenOf st with
  | item it =>
    obtain ⟨e1, e2⟩ := givenOf_item e
    obtain ⟨cj, g⟩ := it
    cases e1
    cases cj with
    | true => exact .inl ⟨rfl, e2.1 rfl⟩
    | false => exact .inr (.inl ⟨rfl, fun g => Bool.noConfusion (e2.2 g)⟩)
  | clause f =>
    obtain ⟨e1, _, e3⟩ := givenOf_clause (hP.ok st hst) e
    exact .inr (.inr ⟨by rw [e1], e3⟩)
  | _ =>
    exfalso
    unfold givenOf at e
    split at e
    · split at e <;> cases e
    · cases e

/-! ### And back -/

/-- the symbol for a name -/
def symq (qd : String → Bool) (s : String) : Const := if qd s then .qsym s else .sym s

/-- the structure, for the names of the file -/
def structOf (qd : String → Bool) (M : FO) : Struct M.D where
  cst s := M.cst (symq qd s)
  obj s := M.cst (.str s)
  num t := M.cst (.int (decimal t))
  fn s := M.fn (symq qd (arithName s))
  pr s := M.pr (symq qd s)

theorem arithName_cases (s : String) : arithName s = s ∨ arithName s ∈ ["+", "-", "*", "/"] := by
  unfold arithName
  split
  · exact .inr (by simp)
  · split
    · exact .inr (by simp)
    · split
      · exact .inr (by simp)
      · split
        · exact .inr (by simp)
        · exact .inl rfl

theorem arithName_op {s : String} (h : s ∈ ["+", "-", "*", "/"]) : arithName s = s := by
  simp only [List.mem_cons, List.not_mem_nil, or_false] at h
  rcases h with rfl | rfl | rfl | rfl <;> decide

theorem arithName_twice (s : String) : arithName (arithName s) = arithName s := by
  rcases arithName_cases s with e | e
  · rw [e, e]
  · exact arithName_op e

section
variable {qd : String → Bool} {P : List Stmt} {M : FO}

theorem structOf_normal (hq : Quotes qd P) (he : ∀ a b, M.pr (.sym "=") [a, b] ↔ a = b) (h1 : M.pr (.sym "$true") []) (h0 : ¬ M.pr (.sym "$false") [])
    (hd : ∃ a b : M.D, a ≠ b) : Normal (structOf qd M) where
  eq a b := by
    have e : symq qd "=" = .sym "=" := by simp [symq, hq.signs "=" (by simp)]
    show M.pr (symq qd "=") _ ↔ _
    rw [e]
    exact he a b
  tt := by
    have e : symq qd "$true" = .sym "$true" := by simp [symq, hq.signs "$true" (by simp)]
    show M.pr (symq qd "$true") _
    rw [e]
    exact h1
  ff := by
    have e : symq qd "$false" = .sym "$false" := by simp [symq, hq.signs "$false" (by simp)]
    show ¬ M.pr (symq qd "$false") _
    rw [e]
    exact h0
  arith s := by
    show M.fn (symq qd (arithName (arithName s))) = _
    rw [arithName_twice]
    rfl
  num t t' _ _ e := by
    show M.cst (.int (decimal t)) = M.cst (.int (decimal t'))
    rw [e]
  two := hd

theorem structOf_link (hq : Quotes qd P) (h1 : M.pr (.sym "$true") []) (h0 : ¬ M.pr (.sym "$false") []) : Link M.str (structOf qd M) := by
  refine ⟨?_, h1, h0⟩
  have e : symq qd "=" = .sym "=" := by simp [symq, hq.signs "=" (by simp)]
  show M.pr (.sym "=") = M.pr (symq qd "=")
  rw [e]

theorem structOf_agree {rl : String → SRole} (hs : ∀ s ∈ ["=", "$true", "$false", "+", "-", "*", "/"], qd s = false) : ∀ {u : Use}, Keeps rl u → Quoted qd u → Agree M.str (structOf qd M) u
  | .var x, h, _ => h
  | .cst q s, h, hu => ⟨name_isVar h.1, by
    cases hu
    show M.cst (symbolOf _) = M.cst (symq qd s)
    rw [symbolOf_nm]
    rfl⟩
  | .obj s, h, _ => rfl
  | .num t, h, _ => rfl
  | .fn q f, h, hu => by
    cases hu
    show M.fn (funSym _) = M.fn (symq qd (arithName f))
    rw [funSym_nm h.1]
    cases e : qd f with
    | true =>
      have e' := h.1.2 e
      simp only [List.mem_cons, List.not_mem_nil, or_false, not_or] at e'
      have : arithName f = f := by simp [arithName, e']
      simp [symq, this, e]
    | false =>
      have : qd (arithName f) = false := by
        rcases arithName_cases f with h | h
        · rw [h, e]
        · refine hs _ ?_
          simp only [List.mem_cons, List.not_mem_nil, or_false] at h ⊢
          exact .inr (.inr (.inr h))
      simp [symq, this]
  | .op o, h, _ => by
    have h1 : o ∈ ["+", "-", "*"] := h.1
    have h2 : o ∈ ["+", "-", "*", "/"] := by
      simp only [List.mem_cons, List.not_mem_nil, or_false] at h1 ⊢
      exact h1.imp id fun h => h.imp id .inl
    show M.fn (funSym ⟨13, o⟩) = M.fn (symq qd (arithName o))
    have : qd o = false := hs _ (by
      simp only [List.mem_cons, List.not_mem_nil, or_false] at h2 ⊢
      exact .inr (.inr (.inr h2)))
    rw [op_symbol h1, arithName_op h2, symq, this]
    rfl
  | .pr q p, h, hu => by
    cases hu
    show M.pr (symbolOf _) = M.pr (symq qd p)
    rw [symbolOf_nm]
    rfl
  | .prop q p, h, hu => by
    cases hu
    show M.pr (symbolOf _) [] = M.pr (symq qd p) []
    rw [symbolOf_nm]
    rfl
end

theorem vuniq_F {rl : String → SRole} {f : F} (k : ∀ u ∈ uses f, Keeps rl u) : VUniq exVar (fr f) := by
  intro n m hn hm vn vm e
  obtain ⟨x, _, rfl⟩ := (nam_F f k hn).var k vn
  obtain ⟨y, _, rfl⟩ := (nam_F f k hm).var k vm
  have : x = y := e
  rw [this]

section
variable {D : Type} {S : Struct D}

mutual
theorem ev_congr {v v' : String → D} : ∀ t : T, (∀ x, Use.var x ∈ usesT t → v x = v' x) → S.ev v t = S.ev v' t
  | .var x, h => h x (by simp [usesT])
  | .name _ _, _ => rfl
  | .obj _, _ => rfl
  | .num _, _ => rfl
  | .app q f as, h => by simp only [Struct.ev]; rw [evL_congr as fun x hx => h x (by simp [usesT, hx])]
  | .arith o a b, h => by
    simp only [Struct.ev]
    rw [ev_congr a fun x hx => h x (by simp [usesT, hx]), ev_congr b fun x hx => h x (by simp [usesT, hx])]
theorem evL_congr {v v' : String → D} : ∀ ts : List T, (∀ x, Use.var x ∈ usesTL ts → v x = v' x) → S.evL v ts = S.evL v' ts
  | [], _ => rfl
  | t :: ts, h => by
    simp only [Struct.evL]
    rw [ev_congr t fun x hx => h x (by simp [usesTL, hx]), evL_congr ts fun x hx => h x (by simp [usesTL, hx])]
end

/-- values of variables that do not occur do not matter -/
theorem means_congr : ∀ (f : F) {v v' : String → D}, (∀ x, Use.var x ∈ uses f → v x = v' x) → (S.means v f ↔ S.means v' f)
  | .atom q p as, v, v', h => by simp only [Struct.means]; rw [evL_congr as fun x hx => h x (by simp [uses, hx])]
  | .prop _ _, _, _, _ => Iff.rfl
  | .const _, _, _, _ => Iff.rfl
  | .eq a b, v, v', h => by
    simp only [Struct.means]
    rw [ev_congr a fun x hx => h x (by simp [uses, hx]), ev_congr b fun x hx => h x (by simp [uses, hx])]
  | .neq a b, v, v', h => by
    simp only [Struct.means]
    rw [ev_congr a fun x hx => h x (by simp [uses, hx]), ev_congr b fun x hx => h x (by simp [uses, hx])]
  | .neg f, v, v', h => not_congr (means_congr f h)
  | .bin op a b, v, v', h => by
    have ha := means_congr a fun x hx => h x (by simp [uses, hx])
    have hb := means_congr b fun x hx => h x (by simp [uses, hx])
    simp only [Struct.means]
    rw [propext ha, propext hb]
  | .all vs f, v, v', h => by
    simp only [Struct.means]
    have key : ∀ {v v' : String → D}, (∀ x, Use.var x ∈ uses (.all vs f) → v x = v' x) →
        (∀ w, (∀ x, x ∉ vs → w x = v x) → S.means w f) → ∀ w, (∀ x, x ∉ vs → w x = v' x) → S.means w f := by
      intro v v' h H w hw
      refine (means_congr f fun x hx => ?_).1 (H (fun x => if x ∈ vs then w x else v x) fun x hx => if_neg hx)
      by_cases hv : x ∈ vs
      · exact if_pos hv
      · simp only [if_neg hv]
        rw [h x (by simp [uses, hx]), hw x hv]
    exact ⟨key h, key fun x hx => (h x hx).symm⟩
  | .ex vs f, v, v', h => by
    simp only [Struct.means]
    have key : ∀ {v v' : String → D}, (∀ x, Use.var x ∈ uses (.ex vs f) → v x = v' x) →
        (∃ w, (∀ x, x ∉ vs → w x = v x) ∧ S.means w f) → ∃ w, (∀ x, x ∉ vs → w x = v' x) ∧ S.means w f := by
      rintro v v' h ⟨w, hw, H⟩
      refine ⟨fun x => if x ∈ vs then w x else v' x, fun x hx => if_neg hx, (means_congr f fun x hx => ?_).1 H⟩
      by_cases hv : x ∈ vs
      · exact (if_pos hv).symm
      · simp only [if_neg hv]
        rw [hw x hv, h x (by simp [uses, hx])]
    exact ⟨key h, key fun x hx => (h x hx).symm⟩
end

theorem contradictory_core {P : List Stmt} {rl : String → SRole} (hP : Fine rl P) {qd : String → Bool} (hq : Quotes qd P)
    {strat : Bool} {fuel sn nr : Nat} {fcs : List FCl} (hc : clausifyAll exVar strat fuel sn nr (itemsOf (P.map givenOf).reverse) = some fcs) (lss : List (List Gkc.Lit))
    (hb : ∀ fc, Given.Clauses fcs (clausesOf (P.map givenOf).reverse) fc → ∃ ls ∈ lss, buildCl exVar fc = some ls)
    (h : ∀ (D : Type) (S : Struct D), Normal S → (∀ st ∈ P, ¬ Goal st → ∀ v, S.means v st.frm) → ∃ st ∈ P, Goal st ∧ ∃ v, S.means v st.frm) :
    Contra (fun M => ∃ a b : M.D, a ≠ b) lss := by
  intro N hN he h1 h0
  by_cases goal : ∃ ls ∈ lss, ¬ N.holds ls
  · exact goal
  exfalso
  have all : ∀ ls ∈ lss, N.holds ls := fun ls hm => Classical.byContradiction fun hn => goal ⟨ls, hm, hn⟩
  have adm : ∀ it ∈ itemsOf (P.map givenOf).reverse, Adm exVar (sgOf rl) it.frm := by
    intro it hm
    obtain ⟨st, hst, e⟩ := mem_items hm
    rw [(givenOf_item e).1]
    exact adm_F hP.sig (hP.keeps st hst) (hP.apart st hst)
  have hF := hP.sig.fresh sn nr
  obtain ⟨sg', x, w, k⟩ := clausifyAll_back (sgOf rl) hc hF (fun it hm => (adm it hm).prepared)
  have hp' : sg' (.sym "$pr") = .unused := by rw [x.keep (by simp)]; exact hP.sig.pr
  have htr' : sg' (.sym "$true") = .prop := by rw [x.keep (by simp)]; exact hP.sig.tt
  have hfa' : sg' (.sym "$false") = .prop := by rw [x.keep (by simp)]; exact hP.sig.ff
  have t1 : (N.props sg').pr (.sym "$true") [] := by simpa [FO.props, htr'] using h1
  have t0 : ¬ (N.props sg').pr (.sym "$false") [] := by simpa [FO.props, hfa'] using h0
  have eq : ∀ a b, (N.props sg').pr (.sym "=") [a, b] ↔ a = b := fun a b => by
    have : (N.props sg').pr (.sym "=") [a, b] = N.pr (.sym "=") [a, b] := by simp [FO.props]
    rw [this]
    exact he a b
  have sat := k (N.props sg').str ⟨t1, t0⟩ (fun fc hm τ hτ => by
    obtain ⟨ls, hl, e⟩ := hb fc (.inl hm)
    exact build_back hp' FO.props_reads (w fc hm).1 (w fc hm).2 e (all ls hl) τ hτ)
  have hold : ∀ st ∈ P, ∀ τ, (N.props sg').str.Val exVar τ →
      ((N.props sg').str.fint.holds τ (fr st.frm) ↔ (structOf qd (N.props sg')).means (fun x => τ (uri x)) st.frm) := fun st hst τ hτ =>
    holds_F (structOf_link hq t1 t0) st.frm hτ fun u hu => structOf_agree hq.signs (hP.keeps st hst u hu) (hq.same st hst u hu)
  have val : ∀ v : String → N.D, ∃ τ, (N.props sg').str.Val exVar τ ∧ ∀ y, Js.Spec.capital y = true → τ (uri y) = v y := fun v =>
    ⟨fun n => if isVar exVar n then v n.str else (N.props sg').str.cst (symbolOf n), fun n h => by simp [h], fun y hy => by simp only [var_isVar hy]; rfl⟩
  have raw : ∀ st ∈ P, ∀ f, givenOf st = .clause f → Sat exVar (N.props sg').str (fr st.frm) := by
    intro st hst f e
    obtain ⟨e1, e2, _⟩ := givenOf_clause (hP.ok st hst) e
    obtain ⟨cs, ef, _⟩ := C29_flatten_equivalent (Cnf.cls (cls_F e2))
    have wt := wt_F hP.sig _ (hP.keeps st hst)
    have mem : f ∈ clausesOf (P.map givenOf).reverse := by
      simp only [clausesOf, List.mem_filterMap, List.mem_reverse, List.mem_map]
      exact ⟨_, ⟨st, hst, rfl⟩, by rw [e]⟩
    refine flat_back (.cls (cls_F e2)) wt ef ⟨t1, t0⟩ fun fc hm τ hτ => ?_
    obtain ⟨ls, hl, eb⟩ := hb fc (.inr ⟨f, mem, cs, by rw [e1]; exact ef, hm⟩)
    exact build_back hp' FO.props_reads (((flat_true (D := Unit) (.cls (cls_F e2)) wt ef).1 fc hm).mono hF x) (flat_vuniq (.cls (cls_F e2)) (vuniq_F (hP.keeps st hst)) ef fc hm)
      eb (all ls hl) τ hτ
  have item : ∀ st ∈ P, ∀ it, givenOf st = .item it → Sat exVar (N.props sg').str it.prepared := by
    intro st hst it e
    refine sat it ?_
    simp only [itemsOf, List.mem_filterMap, List.mem_reverse, List.mem_map]
    exact ⟨_, ⟨st, hst, rfl⟩, by rw [e]⟩
  have kind : ∀ st, (∃ it, givenOf st = .item it) ∨ ∃ f, givenOf st = .clause f := by
    intro st
    unfold givenOf
    split
    · split
      · exact .inl ⟨_, rfl⟩
      · exact .inr ⟨_, rfl⟩
    · exact .inl ⟨_, rfl⟩
  obtain ⟨st, hst, hg, v, hv⟩ := h N.D (structOf qd (N.props sg')) (structOf_normal hq eq t1 t0 hN) (by
    intro st hst hg v
    obtain ⟨τ, hτ, e⟩ := val v
    have : (N.props sg').str.fint.holds τ (fr st.frm) := by
      rcases kind st with ⟨it, hi⟩ | ⟨f, hi⟩
      · obtain ⟨e1, e2⟩ := givenOf_item hi
        have := item st hst it hi
        unfold Item.prepared at this
        split at this
        · rename_i hcj
          exact absurd (e2.1 hcj) hg
        · rw [← e1]
          exact this τ hτ
      · exact raw st hst f hi τ hτ
    exact (means_congr st.frm fun x hx => e x (hP.keeps st hst _ hx)).1 ((hold st hst τ hτ).1 this))
  obtain ⟨τ, hτ, e⟩ := val v
  have ht := (hold st hst τ hτ).2 ((means_congr st.frm fun x hx => (e x (hP.keeps st hst _ hx)).symm).1 hv)
  rcases kind st with ⟨it, hi⟩ | ⟨f, hi⟩
  · obtain ⟨e1, e2⟩ := givenOf_item hi
    have := item st hst it hi
    unfold Item.prepared at this
    rw [if_pos (e2.2 hg), e1] at this
    exact this τ hτ ht
  · exact (givenOf_clause (hP.ok st hst) hi).2.2 hg

/-- **C67, nothing is lost.** If some conjecture of a text follows from its other statements (in structures with at least two elements), then the clauses
that the prover gets are contradictory.  Here a name must always be written in quotes or never. -/
theorem C67_consequence_means_contradictory {l : Bool} {P : List Stmt} {ts : List Gkc.Ps.Tok} {txt : List Char} {rl : String → SRole}
    (hf : File l P ts) (ht : Text ts txt) (hP : Fine rl P) {qd : String → Bool} (hq : Quotes qd P)
    {n : Nat} {ls : List Lst} (hl : statements n txt = some ls) {strat : Bool} {fuel sn nr : Nat} {fcs : List FCl}
    (hc : clausifyAll exVar strat fuel sn nr (itemsOf (ls.map Gkc.Pb.given)) = some fcs) (lss : List (List Gkc.Lit))
    (hb : ∀ fc, Given.Clauses fcs (clausesOf (ls.map Gkc.Pb.given)) fc → ∃ ls ∈ lss, buildCl exVar fc = some ls)
    (h : ∀ (D : Type) (S : Struct D), Normal S → (∀ st ∈ P, ¬ Goal st → ∀ v, S.means v st.frm) → ∃ st ∈ P, Goal st ∧ ∃ v, S.means v st.frm) :
    Contra (fun M => ∃ a b : M.D, a ≠ b) lss := by
  obtain ⟨n', hn'⟩ := statements_eq hf ht
  cases statements_one hl (hn' n' (Nat.le_refl _))
  rw [given_map hP] at hc hb
  exact contradictory_core hP hq hc lss hb h

/-! ### Cases -/

open Gkc.Ps (Tok)
open Gkc.Ps.Spec

/-- a word and what may follow it -/
theorem text_word (c : Char) (cs : List Char) (d : Char) {r : List Char} {ts : List Tok} (h : c.toNat ∈ List.range' 97 26 ++ List.range' 65 26 ∧ ∀ x ∈ cs, x.toNat ∈ List.range' 97 26)
    (hd : d.toNat ∈ [40, 44, 93, 41, 32]) (hr : Text ts (d :: r)) : Text (⟨11, String.ofList (c :: cs)⟩ :: ts) (c :: (cs ++ d :: r)) := by
  refine Text.cons .nil (.word ?_ fun x hx => .inl ?_) ?_ hr
  · have := h.1; simp [letter] at this ⊢; omega
  · have := h.2 x hx; simp [letter] at this ⊢; omega
  · intro x hx
    cases hx
    simp [wordChar, letter, digit] at hd ⊢
    omega

theorem text_sign {t : Tok} (d : Char) {r : List Char} {ts : List Tok} (h : (t, String.ofList [d], ([] : List Char)) ∈ signs) (hr : Text ts r) : Text (t :: ts) (d :: r) := by
  have := Text.cons .nil (Shown.sign h) (by simp) hr
  simpa using this

theorem text_sign' {t : Tok} (d : Char) {r : List Char} {ts : List Tok} {no : List Char} (h : (t, String.ofList [d], no) ∈ signs) (hn : ∀ c, r.head? = some c → c ∉ no) (hr : Text ts r) :
    Text (t :: ts) (d :: r) := by
  have := Text.cons .nil (Shown.sign h) hn hr
  simpa using this

theorem text_blank (c : Char) {r : List Char} {ts : List Tok} (h : c ∈ [' ', '\t', '\n']) (hr : Text ts r) : Text ts (c :: r) := by
  cases hr with
  | nil g => exact .nil (.blank c h g)
  | cons g hx hn hr => exact .cons (.blank c h g) hx hn hr

theorem text_eq {ts us : List Tok} {txt x : List Char} (h1 : Text us txt) (h2 : txt = x) (h3 : us = ts) : Text ts x := by
  rw [← h2, ← h3]
  exact h1

/-- a problem: the conjecture, a rule in clausal form, a fact -/
def exText : List Char := "fof(c,conjecture,q(a)).\ncnf(b,axiom,~p(X)|q(X)).\nfof(a,axiom,p(a)).".toList

/-- what it says -/
def exProblem : List Stmt :=
  [⟨some ("fof", false, "c", "conjecture"), .atom false "q" [.name false "a"]⟩,
   ⟨some ("cnf", false, "b", "axiom"), .bin .or (.neg (.atom false "p" [.var "X"])) (.atom false "q" [.var "X"])⟩,
   ⟨some ("fof", false, "a", "axiom"), .atom false "p" [.name false "a"]⟩]

theorem ex_file : ∃ ts, File false exProblem ts ∧ Text ts exText := by
  refine ⟨_, .cons (.item "fof" false "c" "conjecture" (.unit (.atom false "q" [.name false "a"] (by simp) (by simp [okL, ok])))) (by decide) <|
    .cons (.item "cnf" false "b" "axiom" (.chain (.two .or (.neg false (.atom false "p" [.var "X"] (by simp) (by simp [okL, ok]))) (.atom false "q" [.var "X"] (by simp) (by simp [okL, ok])))))
      (by decide) <|
    .cons (.item "fof" false "a" "axiom" (.unit (.atom false "p" [.name false "a"] (by simp) (by simp [okL, ok])))) (by decide) .nil, ?_⟩
  exact text_eq (
    text_word 'f' ['o', 'f'] '(' (by decide) (by decide) <| text_sign (t := lpar) '(' (by decide) <|
    text_word 'c' [] ',' (by decide) (by decide) <| text_sign (t := comma) ',' (by decide) <|
    text_word 'c' ['o', 'n', 'j', 'e', 'c', 't', 'u', 'r', 'e'] ',' (by decide) (by decide) <| text_sign (t := comma) ',' (by decide) <|
    text_word 'q' [] '(' (by decide) (by decide) <| text_sign (t := lpar) '(' (by decide) <|
    text_word 'a' [] ')' (by decide) (by decide) <| text_sign (t := rpar) ')' (by decide) <|
    text_sign (t := rpar) ')' (by decide) <| text_sign (t := dot) '.' (by decide) <| text_blank '\n' (by simp) <|
    text_word 'c' ['n', 'f'] '(' (by decide) (by decide) <| text_sign (t := lpar) '(' (by decide) <|
    text_word 'b' [] ',' (by decide) (by decide) <| text_sign (t := comma) ',' (by decide) <|
    text_word 'a' ['x', 'i', 'o', 'm'] ',' (by decide) (by decide) <| text_sign (t := comma) ',' (by decide) <|
    text_sign' (t := ⟨32, ""⟩) (no := ['&', '|']) '~' (by decide) (by intro c hc; cases hc; decide) <|
    text_word 'p' [] '(' (by decide) (by decide) <| text_sign (t := lpar) '(' (by decide) <|
    text_word 'X' [] ')' (by decide) (by decide) <| text_sign (t := rpar) ')' (by decide) <|
    text_sign (t := ⟨28, ""⟩) '|' (by decide) <|
    text_word 'q' [] '(' (by decide) (by decide) <| text_sign (t := lpar) '(' (by decide) <|
    text_word 'X' [] ')' (by decide) (by decide) <| text_sign (t := rpar) ')' (by decide) <|
    text_sign (t := rpar) ')' (by decide) <| text_sign (t := dot) '.' (by decide) <| text_blank '\n' (by simp) <|
    text_word 'f' ['o', 'f'] '(' (by decide) (by decide) <| text_sign (t := lpar) '(' (by decide) <|
    text_word 'a' [] ',' (by decide) (by decide) <| text_sign (t := comma) ',' (by decide) <|
    text_word 'a' ['x', 'i', 'o', 'm'] ',' (by decide) (by decide) <| text_sign (t := comma) ',' (by decide) <|
    text_word 'p' [] '(' (by decide) (by decide) <| text_sign (t := lpar) '(' (by decide) <|
    text_word 'a' [] ')' (by decide) (by decide) <| text_sign (t := rpar) ')' (by decide) <|
    text_sign (t := rpar) ')' (by decide) <| text_sign (t := dot) '.' (by decide) <| .nil .nil) (by decide +kernel) (by decide +kernel)

/-- the roles -/
def exRl (s : String) : SRole :=
  if s = "a" then .cnst else if s = "p" ∨ s = "q" ∨ s = "=" then .pred else if s = "$true" ∨ s = "$false" then .prop else .unused

theorem exRl_sig : Sig exRl := by
  have key : ∀ s t : String, s.toList = '$' :: 's' :: 'k' :: t.toList ∨ s.toList = '$' :: 'd' :: 'f' :: t.toList → exRl s = .unused := by
    intro s t h
    simp only [exRl]
    rw [if_neg, if_neg, if_neg]
    · rintro (rfl | rfl) <;> simp at h
    · rintro (rfl | rfl | rfl) <;> simp at h
    · rintro rfl; simp at h
  exact ⟨by decide, by decide, by decide, by decide, fun k => key _ (toString k) (.inl (by simp [String.toList_append])),
    fun k => key _ (toString k) (.inr (by simp [String.toList_append]))⟩

theorem nameOk_plain {s : String} (h : varStr ⟨true, true⟩ s = false) : NameOk false s := ⟨fun _ => h, fun h => Bool.noConfusion h⟩

theorem ex_fine : Fine exRl exProblem where
  sig := exRl_sig
  ok s hs := by
    simp only [exProblem, List.mem_cons, List.not_mem_nil, or_false] at hs
    rcases hs with rfl | rfl | rfl
    · exact .inl rfl
    · exact .inr ⟨rfl, by decide, .or (.natom _ _ _) (.atom _ _ _)⟩
    · exact .inl rfl
  keeps s hs u hu := by
    have p : NameOk false "p" := nameOk_plain (by decide)
    have q : NameOk false "q" := nameOk_plain (by decide)
    have a : NameOk false "a" := nameOk_plain (by decide)
    simp only [exProblem, List.mem_cons, List.not_mem_nil, or_false] at hs
    rcases hs with rfl | rfl | rfl <;> simp only [uses, usesT, usesTL, List.mem_cons, List.mem_append, List.append_nil, List.not_mem_nil, or_false] at hu
    · rcases hu with rfl | rfl
      · exact ⟨q, by decide, by decide⟩
      · exact ⟨a, by decide⟩
    · rcases hu with (rfl | rfl) | rfl | rfl
      · exact ⟨p, by decide, by decide⟩
      · exact show Js.Spec.capital "X" = true by decide
      · exact ⟨q, by decide, by decide⟩
      · exact show Js.Spec.capital "X" = true by decide
    · rcases hu with rfl | rfl
      · exact ⟨p, by decide, by decide⟩
      · exact ⟨a, by decide⟩
  apart s hs x hx := by
    simp only [exProblem, List.mem_cons, List.not_mem_nil, or_false] at hs
    rcases hs with rfl | rfl | rfl <;> simp [uses, usesT, usesTL] at hx ⊢

theorem ex_quotes : Quotes (fun _ => false) exProblem where
  signs _ _ := rfl
  same st hs u hu := by
    simp only [exProblem, List.mem_cons, List.not_mem_nil, or_false] at hs
    rcases hs with rfl | rfl | rfl <;> simp only [uses, usesT, usesTL, List.mem_cons, List.mem_append, List.append_nil, List.not_mem_nil, or_false] at hu
    · rcases hu with rfl | rfl <;> simp [Quoted]
    · rcases hu with (rfl | rfl) | rfl | rfl <;> simp [Quoted]
    · rcases hu with rfl | rfl <;> simp [Quoted]

/-- the clauses of the formulas -/
def exClauses : List FCl := [.lits [.at (exP "p" "a")], .lits [.neg (.at (exP "q" "a"))]]

/-- the rule -/
def exRaw : Frm := .or [.neg (.at (exP "p" "X")), .at (exP "q" "X")]

theorem ex_given : itemsOf (((exProblem.map Stmt.tree).reverse).map Gkc.Pb.given) = [⟨false, .at (exP "p" "a")⟩, ⟨true, .at (exP "q" "a")⟩] ∧
    clausesOf (((exProblem.map Stmt.tree).reverse).map Gkc.Pb.given) = [exRaw] := by
  rw [given_map ex_fine]
  exact ⟨rfl, rfl⟩

theorem ex_all : clausifyAll exVar true 9 0 0 [⟨false, .at (exP "p" "a")⟩, ⟨true, .at (exP "q" "a")⟩] = some exClauses := by
  have l1 : ∀ t, flat (.at t) = some [.lits [.at t]] := fun t => by simp [flat, flatOr]
  have l2 : ∀ t, flat (.neg (.at t)) = some [.lits [.neg (.at t)]] := fun t => by simp [flat, flatOr]
  have a : clausify exVar true 9 0 0 (Item.prepared ⟨false, .at (exP "p" "a")⟩) = some (.at (exP "p" "a"), 0, 0) := rfl
  have b : clausify exVar true 9 0 0 (Item.prepared ⟨true, .at (exP "q" "a")⟩) = some (.neg (.at (exP "q" "a")), 0, 0) := by rfl
  simp only [clausifyAll, a, b, Option.bind_some, Option.map_some, l1, l2]
  rfl

theorem ex_flat : flat exRaw = some [.lits [.neg (.at (exP "p" "X")), .at (exP "q" "X")]] := by simp [exRaw, flat, flatOr, truthOf, exP]

theorem ex_built : ∀ cl ∈ exInput, ∃ fc, Given.Clauses exClauses [exRaw] fc ∧ ∃ ls, buildCl exVar fc = some ls ∧ NewCl ls cl := by
  intro cl h
  simp only [exInput, List.mem_cons, List.not_mem_nil, or_false] at h
  rcases h with rfl | rfl | rfl
  · exact ⟨_, .inl (.head _), _, by rfl, by rfl, by simp [Sep]⟩
  · exact ⟨_, .inr ⟨_, .head _, _, ex_flat, .head _⟩, _, by rfl, by rfl, by simp [Sep]⟩
  · exact ⟨_, .inl (.tail _ (.head _)), _, by rfl, by rfl, by simp [Sep]⟩

/-- the text meets the hypotheses, the loop finds a proof, and so the conjecture follows -/
example {D : Type} (S : Struct D) (hS : Normal S) (h1 : S.pr "p" [S.cst "a"]) (h2 : ∀ d, S.pr "p" [d] → S.pr "q" [d]) : S.pr "q" [S.cst "a"] := by
  obtain ⟨ts, hf, ht⟩ := ex_file
  obtain ⟨n, hn⟩ := statements_eq hf ht
  obtain ⟨s, r, hs⟩ := exRun
  obtain ⟨st, hst, hg, v, h⟩ := C67_proof_means_consequence_partial hf ht ex_fine (hn n (Nat.le_refl _)) (by rw [ex_given.1]; exact clausifyAll_rel ex_all) _ _ _ exInput
    (by rw [ex_given.2]; exact ex_built) s r hs S hS (by
      intro st hst hg v
      simp only [exProblem, List.mem_cons, List.not_mem_nil, or_false] at hst
      rcases hst with rfl | rfl | rfl
      · exact absurd ⟨_, _, rfl⟩ hg
      · exact Classical.or_iff_not_imp_left.2 fun h => h2 _ (Classical.not_not.1 h)
      · exact h1)
  simp only [exProblem, List.mem_cons, List.not_mem_nil, or_false] at hst
  rcases hst with rfl | rfl | rfl
  · exact h
  · obtain ⟨_, _, e⟩ := hg
    simp at e
  · obtain ⟨_, _, e⟩ := hg
    simp at e

/-- the same text meets the hypotheses of the theorem back, and the clauses are contradictory -/
example : ∃ lss, Contra (fun M => ∃ a b : M.D, a ≠ b) lss ∧ lss.length = 3 := by
  obtain ⟨ts, hf, ht⟩ := ex_file
  obtain ⟨n, hn⟩ := statements_eq hf ht
  refine ⟨[[⟨false, ap "p" [cn "a"]⟩], [⟨true, ap "q" [cn "a"]⟩], [⟨true, ap "p" [.var 0]⟩, ⟨false, ap "q" [.var 0]⟩]],
    C67_consequence_means_contradictory hf ht ex_fine ex_quotes (hn n (Nat.le_refl _)) (by rw [ex_given.1]; exact ex_all) _ ?_ ?_, rfl⟩
  · rw [ex_given.2]
    rintro fc (h | ⟨f, hf, cs, e, h⟩)
    · simp only [exClauses, List.mem_cons, List.not_mem_nil, or_false] at h
      rcases h with rfl | rfl
      · exact ⟨_, .head _, by rfl⟩
      · exact ⟨_, .tail _ (.head _), by rfl⟩
    · rw [List.mem_singleton.1 hf, ex_flat] at e
      cases e
      rw [List.mem_singleton.1 h]
      exact ⟨_, .tail _ (.tail _ (.head _)), by rfl⟩
  · intro D S hS hax
    refine ⟨_, .head _, ⟨_, _, rfl⟩, fun _ => S.cst "a", ?_⟩
    have h1 := hax _ (.tail _ (.tail _ (.head _))) (by rintro ⟨_, _, e⟩; simp at e) fun _ => S.cst "a"
    have h2 := hax _ (.tail _ (.head _)) (by rintro ⟨_, _, e⟩; simp at e) fun _ => S.cst "a"
    exact h2.resolve_left fun h => h h1

/-! ### What is read differently -/

/-- **C67, negative.** A statement with a source after the formula, as TPTP allows it, does not have the length the code looks for.  It becomes an atom
with the predicate `fof` (or nothing that can be read): its formula is not among what is given to the prover, and a conjecture is none. -/
theorem C67_source_hides_the_formula (q : Bool) (n r : String) (f src : Lst) :
    Gkc.Pb.given (.list [sym false "fof", sym q n, sym false r, f, src]) = .unread ∨
    ∃ as, Gkc.Pb.given (.list [sym false "fof", sym q n, sym false r, f, src]) = .item ⟨false, .at (.app (uri "fof") as)⟩ := by
  have e : Gkc.Pb.given (.list [sym false "fof", sym q n, sym false r, f, src]) = readAs (fun f => .item ⟨false, f⟩) (.list [sym false "fof", sym q n, sym false r, f, src]) := by
    simp [Gkc.Pb.given, isStmt]
  rw [e, readAs]
  simp only [seen, seenL, nmOf_sym]
  rw [read_app (by simp [nm])]
  cases readTL _ with
  | none => exact .inl rfl
  | some as => exact .inr ⟨as, rfl⟩

/-- and so with a text -/
theorem C67_source_example : ∃ x, statements 100 "fof(a,conjecture,p,b).".toList = some [x] ∧
    Gkc.Pb.given x = .item ⟨false, .at (.app (uri "fof") [.nm (uri "a"), .nm (uri "conjecture"), .nm (uri "p"), .nm (uri "b")])⟩ := by
  refine ⟨.list [sym false "fof", sym false "a", sym false "conjecture", sym false "p", sym false "b"], ?_, by rfl⟩
  have : Gkc.Ps.parse 100 "fof(a,conjecture,p,b).".toList = some (.accept (some (.tree (.list [.list [sym false "fof", sym false "a", sym false "conjecture", sym false "p", sym false "b"]])))) :=
    Gkc.Ps.isTree_eq (by decide +kernel)
  rw [statements, this]

/-- **C67, negative.** The role of a `cnf` statement is not looked at: a conjecture is used as an axiom. -/
theorem C67_cnf_role_ignored (q : Bool) (n r r' : String) (f : Lst) :
    Gkc.Pb.given (.list [sym false "cnf", sym q n, sym false r, f]) = Gkc.Pb.given (.list [sym false "cnf", sym q n, sym false r', f]) := by
  simp [Gkc.Pb.given, isStmt, isUri_sym]

/-- somewhere in it is a quantifier -/
inductive Quantified : Lst → Prop
  | here (a : Atm) : a.ty = 13 → a.s1 = "all" ∨ a.s1 = "exists" → Quantified (.atom a)
  | inside {l : List Lst} {x : Lst} : x ∈ l → Quantified x → Quantified (.list l)

mutual
theorem hasQuant_iff : ∀ x : Lst, hasQuant x = true ↔ Quantified x
  | .atom a => by
    simp only [hasQuant, Bool.and_eq_true, beq_iff_eq, Bool.or_eq_true]
    exact ⟨fun h => .here a h.1 h.2, fun h => by cases h with | here _ h1 h2 => exact ⟨h1, h2⟩⟩
  | .list l => by
    simp only [hasQuant, hasQuantL_iff l]
    exact ⟨fun ⟨x, h1, h2⟩ => .inside h1 h2, fun h => by cases h with | inside h1 h2 => exact ⟨_, h1, h2⟩⟩
theorem hasQuantL_iff : ∀ l : List Lst, hasQuantL l = true ↔ ∃ x ∈ l, Quantified x
  | [] => by simp [hasQuantL]
  | x :: xs => by simp [hasQuantL, hasQuant_iff x, hasQuantL_iff xs]
end

/-- C67: a clause with a quantifier anywhere in it is an error, and nothing else in a clause is -/
theorem C67_quantifier_in_clause (q : Bool) (n r : String) (f : Lst) :
    Gkc.Pb.given (.list [sym false "cnf", sym q n, sym false r, f]) = .error ↔ Quantified f := by
  rw [← hasQuant_iff]
  have e : Gkc.Pb.given (.list [sym false "cnf", sym q n, sym false r, f]) = cnfItem f := by simp [Gkc.Pb.given, isStmt, isUri_sym]
  rw [e]
  unfold cnfItem
  split
  · next h => simp [h]
  · next h =>
    simp only [h]
    unfold readAs
    split <;> simp

example : Gkc.Pb.given (.list [sym false "cnf", sym false "a", sym false "axiom", .list [sym false "p", .list [word "exists", sym false "X"]]]) = .error :=
  (C67_quantifier_in_clause false "a" "axiom" _).2 (.inside (x := .list [word "exists", sym false "X"]) (by simp)
    (.inside (x := word "exists") (by simp) (.here _ rfl (.inr rfl))))

/-- the same name with and without quotes -/
def quText : List Char := "fof(c,conjecture,p('a')).\nfof(a,axiom,p(a)).".toList

/-- what it says -/
def quProblem : List Stmt :=
  [⟨some ("fof", false, "c", "conjecture"), .atom false "p" [.name true "a"]⟩, ⟨some ("fof", false, "a", "axiom"), .atom false "p" [.name false "a"]⟩]

/-- two elements; `p` is true of what is not in quotes -/
def quFO : FO where
  D := Bool
  cst k := decide (k = .sym "a" ∨ k = .sym "$true")
  fn _ _ := false
  pr q as := (q = .sym "=" ∧ ∃ a, as = [a, a]) ∨ (q = .sym "p" ∧ as = [true]) ∨ (q = .sym "$pr" ∧ as = [true])

theorem qu_file : ∃ ts, File false quProblem ts ∧ Text ts quText := by
  refine ⟨_, .cons (.item "fof" false "c" "conjecture" (.unit (.atom false "p" [.name true "a"] (by simp) (by simp [okL, ok])))) (by decide) <|
    .cons (.item "fof" false "a" "axiom" (.unit (.atom false "p" [.name false "a"] (by simp) (by simp [okL, ok])))) (by decide) .nil, ?_⟩
  exact text_eq (
    text_word 'f' ['o', 'f'] '(' (by decide) (by decide) <| text_sign (t := lpar) '(' (by decide) <|
    text_word 'c' [] ',' (by decide) (by decide) <| text_sign (t := comma) ',' (by decide) <|
    text_word 'c' ['o', 'n', 'j', 'e', 'c', 't', 'u', 'r', 'e'] ',' (by decide) (by decide) <| text_sign (t := comma) ',' (by decide) <|
    text_word 'p' [] '(' (by decide) (by decide) <| text_sign (t := lpar) '(' (by decide) <|
    .cons .nil (.quoted (cs := ['a']) (by simp) (by decide) (by decide) (by decide)) (by simp) <| text_sign (t := rpar) ')' (by decide) <|
    text_sign (t := rpar) ')' (by decide) <| text_sign (t := dot) '.' (by decide) <| text_blank '\n' (by simp) <|
    text_word 'f' ['o', 'f'] '(' (by decide) (by decide) <| text_sign (t := lpar) '(' (by decide) <|
    text_word 'a' [] ',' (by decide) (by decide) <| text_sign (t := comma) ',' (by decide) <|
    text_word 'a' ['x', 'i', 'o', 'm'] ',' (by decide) (by decide) <| text_sign (t := comma) ',' (by decide) <|
    text_word 'p' [] '(' (by decide) (by decide) <| text_sign (t := lpar) '(' (by decide) <|
    text_word 'a' [] ')' (by decide) (by decide) <| text_sign (t := rpar) ')' (by decide) <|
    text_sign (t := rpar) ')' (by decide) <| text_sign (t := dot) '.' (by decide) <| .nil .nil) (by decide +kernel) (by decide +kernel)

theorem qu_fine : Fine exRl quProblem where
  sig := exRl_sig
  ok s hs := by
    simp only [quProblem, List.mem_cons, List.not_mem_nil, or_false] at hs
    rcases hs with rfl | rfl
    · exact .inl rfl
    · exact .inl rfl
  keeps s hs u hu := by
    have p : NameOk false "p" := nameOk_plain (by decide)
    have a : NameOk false "a" := nameOk_plain (by decide)
    have a' : NameOk true "a" := ⟨fun h => Bool.noConfusion h, fun _ => by decide⟩
    simp only [quProblem, List.mem_cons, List.not_mem_nil, or_false] at hs
    rcases hs with rfl | rfl <;> simp only [uses, usesT, usesTL, List.mem_cons, List.append_nil, List.not_mem_nil, or_false] at hu
    · rcases hu with rfl | rfl
      · exact ⟨p, by decide, by decide⟩
      · exact ⟨a', by decide⟩
    · rcases hu with rfl | rfl
      · exact ⟨p, by decide, by decide⟩
      · exact ⟨a, by decide⟩
  apart s hs x hx := by
    simp only [quProblem, List.mem_cons, List.not_mem_nil, or_false] at hs
    rcases hs with rfl | rfl <;> simp [uses, usesT, usesTL] at hx

/-- **C67, negative.** In TPTP `'a'` and `a` are the same name.  Here they are two constants: from `p(a)` the conjecture `p('a')` follows, but the clauses are not
contradictory. -/
theorem C67_quotes_make_another_name : ∃ ts, File false quProblem ts ∧ Text ts quText ∧ Fine exRl quProblem ∧
    (∀ (D : Type) (S : Struct D), Normal S → (∀ st ∈ quProblem, ¬ Goal st → ∀ v, S.means v st.frm) → ∃ st ∈ quProblem, Goal st ∧ ∃ v, S.means v st.frm) ∧
    ∃ n ls fcs lss, statements n quText = some ls ∧ clausesOf (ls.map Gkc.Pb.given) = [] ∧ clausifyAll exVar true 9 0 0 (itemsOf (ls.map Gkc.Pb.given)) = some fcs ∧
      buildAll exVar fcs = some lss ∧ ¬ Contra (fun M => ∃ a b : M.D, a ≠ b) lss := by
  obtain ⟨ts, hf, ht⟩ := qu_file
  obtain ⟨n, hn⟩ := statements_eq hf ht
  refine ⟨ts, hf, ht, qu_fine, fun D S hS hax => ?_, n, _, [.lits [.at (exP "p" "a")], .lits [.neg (.at (.app (uri "p") [.nm ⟨107, "a"⟩]))]],
    [[⟨false, ap "p" [cn "a"]⟩], [⟨true, ap "p" [.const (.qsym "a")]⟩]], hn n (Nat.le_refl _), ?_, ?_, ?_, ?_⟩
  · refine ⟨_, .head _, ⟨_, _, rfl⟩, fun _ => S.cst "a", ?_⟩
    exact hax _ (.tail _ (.head _)) (by rintro ⟨_, _, e⟩; simp at e) fun _ => S.cst "a"
  · rw [given_map qu_fine]
    rfl
  · rw [given_map qu_fine]
    have l1 : ∀ t, flat (.at t) = some [.lits [.at t]] := fun t => by simp [flat, flatOr]
    have l2 : ∀ t, flat (.neg (.at t)) = some [.lits [.neg (.at t)]] := fun t => by simp [flat, flatOr]
    have a : clausify exVar true 9 0 0 (Item.prepared ⟨false, .at (exP "p" "a")⟩) = some (.at (exP "p" "a"), 0, 0) := rfl
    have b : clausify exVar true 9 0 0 (Item.prepared ⟨true, .at (.app (uri "p") [.nm ⟨107, "a"⟩])⟩) = some (.neg (.at (.app (uri "p") [.nm ⟨107, "a"⟩])), 0, 0) := by rfl
    show clausifyAll exVar true 9 0 0 [⟨false, .at (exP "p" "a")⟩, ⟨true, .at (.app (uri "p") [.nm ⟨107, "a"⟩])⟩] = _
    simp only [clausifyAll, a, b, Option.bind_some, Option.map_some, l1, l2]
    rfl
  · rfl
  · intro h
    obtain ⟨ls, hm, hh⟩ := h quFO ⟨true, false, Bool.noConfusion⟩ (fun a b => by cases (a : Bool) <;> cases (b : Bool) <;> simp [quFO]) (by simp [quFO]) (by simp [quFO])
    simp only [List.mem_cons, List.not_mem_nil, or_false] at hm
    rcases hm with rfl | rfl
    · exact hh fun ρ => ⟨_, .head _, by simp [ap, cn, FO.atom, FO.evalL, FO.eval, quFO]⟩
    · exact hh fun ρ => ⟨_, .head _, by simp [ap, FO.atom, FO.evalL, FO.eval, quFO]⟩

end Gkc.Props.Pb
