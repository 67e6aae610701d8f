/-
First-order terms as GKC stores them, and substitutions.

A term is an encoded word: a variable (Db/dbdata.h `isvar`), a constant (any other
non-record word: interned string, integer, ...) or a record.  The fields of a record from
`unify_firstuseterm` on (Reasoner/glb.c sets it to 1) are the function symbol followed by the
arguments (Reasoner/clterm.c, Docs/DATA_REPRESENTATION.md).
Simplification: the function symbol field holds a constant (the parsers never put a variable
or a record there); words are compared by the value they denote, i.e. long strings are
interned (`uniquestrflag` 1), and full integers, doubles, short strings are compared by
contents, Reasoner/unify.c `wr_equal_ptr_primitives`.
-/
namespace Gkc

/-- Doubles, Db/dbdata.h FULLDOUBLEBITS: a finite value or an infinity.  Doubles are compared with
C `==` (Reasoner/unify.c:998-1003), so the sign of zero is left out; the parsers produce no NaN. -/
inductive Dbl
  | fin (q : Rat)
  | inf (neg : Bool)
  deriving DecidableEq, Repr, Inhabited

/-- Constants. -/
inductive Const
  /-- interned long string / uri (tag LONGSTRBITS) -/
  | sym (name : String)
  /-- the same with the second string "#": a distinct symbol "..." -/
  | str (s : String)
  /-- the same with the second string "c": a quoted name '...' (Parser/dbgenparse.h:47) -/
  | qsym (s : String)
  /-- integer, inline or out of line -/
  | int (i : Int)
  /-- double -/
  | dbl (x : Dbl)
  /-- any other non-variable, non-record word (short string, date, ...) -/
  | oth (k : Nat)
  deriving DecidableEq, Repr, Inhabited

/-- Is the constant represented by a long string word? -/
def Const.isLongstr : Const → Bool
  | .sym _ => true
  | .str _ => true
  | .qsym _ => true
  | _ => false

/-- Terms. -/
inductive Term
  | var (v : Nat)
  | const (c : Const)
  | app (f : Const) (args : List Term)
  deriving Repr, Inhabited

namespace Term

/-- induction with a hypothesis for every argument -/
theorem ind {P : Term → Prop} (hv : ∀ v, P (.var v)) (hc : ∀ c, P (.const c))
    (ha : ∀ f args, (∀ t ∈ args, P t) → P (.app f args)) : ∀ t, P t := by
  intro t
  refine Term.rec (motive_1 := P) (motive_2 := fun l => ∀ t ∈ l, P t) hv hc ?_ ?_ ?_ t
  · intro f args ih; exact ha f args ih
  · intro t h; cases h
  · intro t l h1 h2 u hu
    cases hu with
    | head => exact h1
    | tail _ h => exact h2 u h

mutual
/-- decidable equality of terms -/
def beq : Term → Term → Bool
  | .var v, .var w => v == w
  | .const c, .const d => c == d
  | .app f as, .app g bs => f == g && beqL as bs
  | _, _ => false
/-- decidable equality of term lists -/
def beqL : List Term → List Term → Bool
  | [], [] => true
  | a :: as, b :: bs => beq a b && beqL as bs
  | _, _ => false
end

theorem beq_iff : ∀ (s t : Term), beq s t = true ↔ s = t := by
  intro s
  induction s using ind with
  | hv v => intro t; cases t <;> simp [beq]
  | hc c => intro t; cases t <;> simp [beq]
  | ha f as ih =>
    intro t
    have hl : ∀ (as : List Term), (∀ s ∈ as, ∀ t, beq s t = true ↔ s = t) →
        ∀ bs, beqL as bs = true ↔ as = bs := by
      intro as
      induction as with
      | nil => intro _ bs; cases bs <;> simp [beqL]
      | cons a as ih =>
        intro h bs
        cases bs with
        | nil => simp [beqL]
        | cons b bs =>
          simp only [beqL, Bool.and_eq_true, List.cons.injEq]
          rw [h a List.mem_cons_self, ih (fun s hs => h s (List.mem_cons_of_mem _ hs))]
    cases t with
    | var v => simp [beq]
    | const c => simp [beq]
    | app g bs => simp [beq, hl as ih bs]

instance : DecidableEq Term := fun s t => decidable_of_iff _ (beq_iff s t)

mutual
/-- apply a substitution -/
def subst (θ : Nat → Term) : Term → Term
  | .var v => θ v
  | .const c => .const c
  | .app f as => .app f (substL θ as)
/-- apply a substitution to a list of terms -/
def substL (θ : Nat → Term) : List Term → List Term
  | [] => []
  | a :: as => subst θ a :: substL θ as
end

@[simp] theorem subst_var (θ : Nat → Term) (v : Nat) : subst θ (.var v) = θ v := by
  simp [subst]
@[simp] theorem subst_const (θ : Nat → Term) (c : Const) : subst θ (.const c) = .const c := by
  simp [subst]
theorem substL_eq_map (θ : Nat → Term) (as : List Term) : substL θ as = as.map (subst θ) := by
  induction as with
  | nil => simp [substL]
  | cons a as ih => simp [substL, ih]
@[simp] theorem subst_app (θ : Nat → Term) (f : Const) (as : List Term) :
    subst θ (.app f as) = .app f (as.map (subst θ)) := by
  simp [subst, substL_eq_map]

mutual
/-- number of symbols -/
def size : Term → Nat
  | .var _ => 1
  | .const _ => 1
  | .app _ as => 1 + sizeL as
/-- number of symbols in a list -/
def sizeL : List Term → Nat
  | [] => 0
  | a :: as => size a + sizeL as
end

@[simp] theorem size_var (v) : size (.var v) = 1 := by simp [size]
@[simp] theorem size_const (c) : size (.const c) = 1 := by simp [size]
@[simp] theorem size_app (f as) : size (.app f as) = 1 + sizeL as := by simp [size]
@[simp] theorem sizeL_nil : sizeL [] = 0 := by simp [sizeL]
@[simp] theorem sizeL_cons (a as) : sizeL (a :: as) = size a + sizeL as := by simp [sizeL]

theorem size_pos (t : Term) : 0 < size t := by
  cases t <;> simp [size] <;> omega

theorem size_le_sizeL {t : Term} {as : List Term} (h : t ∈ as) : size t ≤ sizeL as := by
  induction as with
  | nil => cases h
  | cons a as ih =>
    cases h with
    | head => simp
    | tail _ h => have := ih h; simp; omega

mutual
/-- variables in order of occurrence -/
def vars : Term → List Nat
  | .var v => [v]
  | .const _ => []
  | .app _ as => varsL as
/-- variables of a list -/
def varsL : List Term → List Nat
  | [] => []
  | a :: as => vars a ++ varsL as
end

@[simp] theorem vars_var (v) : vars (.var v) = [v] := by simp [vars]
@[simp] theorem vars_const (c) : vars (.const c) = [] := by simp [vars]
@[simp] theorem vars_app (f as) : vars (.app f as) = varsL as := by simp [vars]
@[simp] theorem varsL_nil : varsL [] = [] := by simp [varsL]
@[simp] theorem varsL_cons (a as) : varsL (a :: as) = vars a ++ varsL as := by simp [varsL]

theorem mem_varsL {v : Nat} {as : List Term} : v ∈ varsL as ↔ ∃ t ∈ as, v ∈ vars t := by
  induction as with
  | nil => simp
  | cons a as ih => simp [ih]

/-- substitutions agreeing on the variables of a term give the same instance -/
theorem subst_congr {θ τ : Nat → Term} : ∀ {t : Term}, (∀ v ∈ vars t, θ v = τ v) →
    subst θ t = subst τ t := by
  intro t
  induction t using ind with
  | hv v => intro h; simpa using h v (by simp)
  | hc c => intro _; simp
  | ha f as ih =>
    intro h
    simp only [subst_app, Term.app.injEq, true_and]
    apply List.map_congr_left
    intro t ht
    exact ih t ht (fun v hv => h v (by simp only [vars_app, mem_varsL]; exact ⟨t, ht, hv⟩))

/-- equal instances force agreement on the variables -/
theorem subst_agree {θ τ : Nat → Term} : ∀ {t : Term}, subst θ t = subst τ t →
    ∀ v ∈ vars t, θ v = τ v := by
  intro t
  induction t using ind with
  | hv v => intro h w hw; simp at hw; subst hw; simpa using h
  | hc c => intro _ v hv; simp at hv
  | ha f as ih =>
    intro h v hv
    simp only [subst_app, Term.app.injEq, true_and] at h
    simp only [vars_app, mem_varsL] at hv
    obtain ⟨t, ht, hvt⟩ := hv
    exact ih t ht (List.map_eq_map_iff.1 h t ht) v hvt

theorem subst_id (t : Term) : subst .var t = t := by
  induction t using ind with
  | hv v => simp
  | hc c => simp
  | ha f as ih =>
    simp only [subst_app, Term.app.injEq, true_and]
    exact (List.map_congr_left ih).trans (List.map_id' _)

theorem subst_subst (θ τ : Nat → Term) (t : Term) :
    subst τ (subst θ t) = subst (fun v => subst τ (θ v)) t := by
  induction t using ind with
  | hv v => simp
  | hc c => simp
  | ha f as ih =>
    simp only [subst_app, List.map_map, Term.app.injEq, true_and]
    exact List.map_congr_left ih

theorem vars_subst {θ : Nat → Term} {t : Term} {w : Nat} :
    w ∈ vars (subst θ t) ↔ ∃ v ∈ vars t, w ∈ vars (θ v) := by
  induction t using ind with
  | hv v => simp
  | hc c => simp
  | ha f as ih =>
    simp only [subst_app, vars_app, mem_varsL, List.mem_map]
    constructor
    · rintro ⟨_, ⟨t, ht, rfl⟩, hw⟩
      obtain ⟨v, hv, hw⟩ := (ih t ht).1 hw
      exact ⟨v, ⟨t, ht, hv⟩, hw⟩
    · rintro ⟨v, ⟨t, ht, hv⟩, hw⟩
      exact ⟨_, ⟨t, ht, rfl⟩, (ih t ht).2 ⟨v, hv, hw⟩⟩

/-- an instance is at least as large as the value of any variable occurring in it -/
theorem size_le_of_mem {θ : Nat → Term} {t : Term} {v : Nat} (h : v ∈ vars t) :
    size (θ v) ≤ size (subst θ t) := by
  induction t using ind with
  | hv w => simp at h; subst h; simp
  | hc c => simp at h
  | ha f as ih =>
    simp only [vars_app, mem_varsL] at h
    obtain ⟨t, ht, hv⟩ := h
    have h1 := ih t ht hv
    have h2 : size (subst θ t) ≤ sizeL (as.map (subst θ)) :=
      size_le_sizeL (List.mem_map.2 ⟨t, ht, rfl⟩)
    simp; omega

/-- ground terms -/
def Ground (t : Term) : Prop := vars t = []

end Term
end Gkc
