import Verif.Clausify
/-
Names of formulas, coincidence, and preservation of shape by the clausifier.
-/
namespace Gkc.Clausify

mutual
/-- all names of a term, heads included -/
def namesT : FT → List Nm
  | .nm n => [n]
  | .app f as => f :: namesTL as
/-- all names of terms -/
def namesTL : List FT → List Nm
  | [] => []
  | a :: as => namesT a ++ namesTL as
end

mutual
/-- names in argument position -/
def argsT : FT → List Nm
  | .nm n => [n]
  | .app _ as => argsTL as
/-- names in argument position of terms -/
def argsTL : List FT → List Nm
  | [] => []
  | a :: as => argsT a ++ argsTL as
end

mutual
/-- names in head position -/
def headsT : FT → List Nm
  | .nm _ => []
  | .app f as => f :: headsTL as
/-- names in head position of terms -/
def headsTL : List FT → List Nm
  | [] => []
  | a :: as => headsT a ++ headsTL as
end

/-- predicate and function symbols of an atomic formula -/
def headsA : FT → List Nm
  | .nm p => [p]
  | .app f as => f :: headsTL as

mutual
/-- `n` occurs free in a formula; symbols in head position count too -/
def freeIn (n : Nm) : Frm → Prop
  | .at t => n ∈ namesT t
  | .neg f => freeIn n f
  | .and fs => freeInL n fs
  | .or fs => freeInL n fs
  | .imp fs => freeInL n fs
  | .eqv a b => freeIn n a ∨ freeIn n b
  | .all vs f => n ∉ vs ∧ freeIn n f
  | .ex vs f => n ∉ vs ∧ freeIn n f
  | .par f => freeIn n f
/-- in one of them -/
def freeInL (n : Nm) : List Frm → Prop
  | [] => False
  | f :: fs => freeIn n f ∨ freeInL n fs
end

mutual
/-- `n` is quantified somewhere -/
def boundIn (n : Nm) : Frm → Prop
  | .at _ => False
  | .neg f => boundIn n f
  | .and fs => boundInL n fs
  | .or fs => boundInL n fs
  | .imp fs => boundInL n fs
  | .eqv a b => boundIn n a ∨ boundIn n b
  | .all vs f => n ∈ vs ∨ boundIn n f
  | .ex vs f => n ∈ vs ∨ boundIn n f
  | .par f => boundIn n f
/-- in one of them -/
def boundInL (n : Nm) : List Frm → Prop
  | [] => False
  | f :: fs => boundIn n f ∨ boundInL n fs
end

mutual
/-- `n` is a predicate or function symbol -/
def headIn (n : Nm) : Frm → Prop
  | .at t => n ∈ headsA t
  | .neg f => headIn n f
  | .and fs => headInL n fs
  | .or fs => headInL n fs
  | .imp fs => headInL n fs
  | .eqv a b => headIn n a ∨ headIn n b
  | .all _ f => headIn n f
  | .ex _ f => headIn n f
  | .par f => headIn n f
/-- in one of them -/
def headInL (n : Nm) : List Frm → Prop
  | [] => False
  | f :: fs => headIn n f ∨ headInL n fs
end

mutual
/-- `n` occurs in argument position (free or bound) -/
def argIn (n : Nm) : Frm → Prop
  | .at (.nm _) => False
  | .at (.app _ as) => n ∈ argsTL as
  | .neg f => argIn n f
  | .and fs => argInL n fs
  | .or fs => argInL n fs
  | .imp fs => argInL n fs
  | .eqv a b => argIn n a ∨ argIn n b
  | .all _ f => argIn n f
  | .ex _ f => argIn n f
  | .par f => argIn n f
/-- in one of them -/
def argInL (n : Nm) : List Frm → Prop
  | [] => False
  | f :: fs => argIn n f ∨ argInL n fs
end

/-- negation normal form with two arguments for every connective -/
inductive Nnf2 : Frm → Prop
  | at (t : FT) : Nnf2 (.at t)
  | neg (t : FT) : Nnf2 (.neg (.at t))
  | and {a b : Frm} : Nnf2 a → Nnf2 b → Nnf2 (.and [a, b])
  | or {a b : Frm} : Nnf2 a → Nnf2 b → Nnf2 (.or [a, b])
  | all (vs : List Nm) {f : Frm} : Nnf2 f → Nnf2 (.all vs f)
  | ex (vs : List Nm) {f : Frm} : Nnf2 f → Nnf2 (.ex vs f)

mutual
/-- two arguments for every connective -/
def Bin : Frm → Prop
  | .at _ => True
  | .neg f => Bin f
  | .and fs => fs.length = 2 ∧ BinL fs
  | .or fs => fs.length = 2 ∧ BinL fs
  | .imp fs => fs.length = 2 ∧ BinL fs
  | .eqv a b => Bin a ∧ Bin b
  | .all _ f => Bin f
  | .ex _ f => Bin f
  | .par f => Bin f
/-- for all -/
def BinL : List Frm → Prop
  | [] => True
  | f :: fs => Bin f ∧ BinL fs
end

/-- all names of a formula -/
def nameIn (n : Nm) (f : Frm) : Prop := freeIn n f ∨ boundIn n f

/-! ### Coincidence -/

section
variable {D : Type}

mutual
theorem ev_congr {I J : FInt D} {ρ σ : Nm → D} : ∀ (t : FT), (∀ n ∈ argsT t, ρ n = σ n) →
    (∀ n ∈ headsT t, I.fn n = J.fn n) → I.ev ρ t = J.ev σ t
  | .nm n, h, _ => by simp only [FInt.ev]; exact h n (by simp [argsT])
  | .app f as, h, h' => by
    simp only [FInt.ev]
    rw [h' f (by simp [headsT]), evL_congr as (fun n hn => h n (by simpa [argsT] using hn))
      (fun n hn => h' n (by simp [headsT, hn]))]
theorem evL_congr {I J : FInt D} {ρ σ : Nm → D} : ∀ (ts : List FT), (∀ n ∈ argsTL ts, ρ n = σ n) →
    (∀ n ∈ headsTL ts, I.fn n = J.fn n) → I.evL ρ ts = J.evL σ ts
  | [], _, _ => rfl
  | a :: as, h, h' => by
    simp only [FInt.evL]
    rw [ev_congr a (fun n hn => h n (by simp [argsTL, hn])) (fun n hn => h' n (by simp [headsTL, hn])),
      evL_congr as (fun n hn => h n (by simp [argsTL, hn])) (fun n hn => h' n (by simp [headsTL, hn]))]
end

mutual
theorem args_sub_names : ∀ (t : FT) n, n ∈ argsT t → n ∈ namesT t
  | .nm m, n, h => by simpa [argsT, namesT] using h
  | .app f as, n, h => by
    simp only [argsT] at h
    simp [namesT, argsL_sub_names as n h]
theorem argsL_sub_names : ∀ (ts : List FT) n, n ∈ argsTL ts → n ∈ namesTL ts
  | [], n, h => by simp [argsTL] at h
  | a :: as, n, h => by
    simp only [argsTL, List.mem_append] at h
    rcases h with h | h
    · simp [namesTL, args_sub_names a n h]
    · simp [namesTL, argsL_sub_names as n h]
end

mutual
theorem heads_sub_names : ∀ (t : FT) n, n ∈ headsT t → n ∈ namesT t
  | .nm m, n, h => by simp [headsT] at h
  | .app f as, n, h => by
    simp only [headsT, List.mem_cons] at h
    rcases h with h | h
    · simp [namesT, h]
    · simp [namesT, headsL_sub_names as n h]
theorem headsL_sub_names : ∀ (ts : List FT) n, n ∈ headsTL ts → n ∈ namesTL ts
  | [], n, h => by simp [headsTL] at h
  | a :: as, n, h => by
    simp only [headsTL, List.mem_append] at h
    rcases h with h | h
    · simp [namesTL, heads_sub_names a n h]
    · simp [namesTL, headsL_sub_names as n h]
end

theorem atom_congr {I J : FInt D} {ρ σ : Nm → D} : ∀ (t : FT), (∀ n ∈ namesT t, ρ n = σ n) →
    (∀ n ∈ headsA t, I.fn n = J.fn n ∧ I.pr n = J.pr n) → (I.atom ρ t ↔ J.atom σ t)
  | .nm n, h, h' => by
    simp only [FInt.atom]
    rw [(h' n (by simp [headsA])).2]
  | .app f as, h, h' => by
    simp only [FInt.atom]
    rw [(h' f (by simp [headsA])).2, evL_congr as
      (fun n hn => h n (by simp [namesT, argsL_sub_names as n hn])) (fun n hn => (h' n (by simp [headsA, hn])).1)]

theorem freeInL_iff {n : Nm} : ∀ {fs : List Frm}, freeInL n fs ↔ ∃ f ∈ fs, freeIn n f
  | [] => by simp [freeInL]
  | f :: fs => by simp [freeInL, freeInL_iff (fs := fs)]
theorem headInL_iff {n : Nm} : ∀ {fs : List Frm}, headInL n fs ↔ ∃ f ∈ fs, headIn n f
  | [] => by simp [headInL]
  | f :: fs => by simp [headInL, headInL_iff (fs := fs)]
theorem boundInL_iff {n : Nm} : ∀ {fs : List Frm}, boundInL n fs ↔ ∃ f ∈ fs, boundIn n f
  | [] => by simp [boundInL]
  | f :: fs => by simp [boundInL, boundInL_iff (fs := fs)]
theorem argInL_iff {n : Nm} : ∀ {fs : List Frm}, argInL n fs ↔ ∃ f ∈ fs, argIn n f
  | [] => by simp [argInL]
  | f :: fs => by simp [argInL, argInL_iff (fs := fs)]

/-- variants can be transported along assignments that agree where it matters -/
theorem variant_transport {vs : List Nm} {ρ σ ρ' : Nm → D} {P : Nm → Prop} (h : ∀ n, n ∉ vs ∧ P n → ρ n = σ n)
    (hv : Variant vs ρ ρ') : ∃ σ', Variant vs σ σ' ∧ ∀ n, P n → ρ' n = σ' n := by
  refine ⟨fun n => if n ∈ vs then ρ' n else σ n, fun n hn => by simp [hn], fun n hp => ?_⟩
  by_cases hn : n ∈ vs
  · simp [hn]
  · simp only [hn, if_false]
    rw [hv n hn, h n ⟨hn, hp⟩]

mutual
/-- truth depends only on the free names and the symbols used -/
theorem holds_congr {I J : FInt D} : ∀ (f : Frm) {ρ σ : Nm → D}, (∀ n, freeIn n f → ρ n = σ n) →
    (∀ n, headIn n f → I.fn n = J.fn n ∧ I.pr n = J.pr n) → (I.holds ρ f ↔ J.holds σ f)
  | .at t, ρ, σ, h, h' => by
    simp only [FInt.holds]; exact atom_congr t h h'
  | .neg f, ρ, σ, h, h' => by
    simp only [FInt.holds]; rw [holds_congr f h h']
  | .par f, ρ, σ, h, h' => by
    simp only [FInt.holds]; exact holds_congr f h h'
  | .and fs, ρ, σ, h, h' => by
    simp only [FInt.holds]; exact (holdsL_congr fs h h').1
  | .or fs, ρ, σ, h, h' => by
    simp only [FInt.holds]; exact (holdsL_congr fs h h').2.1
  | .imp fs, ρ, σ, h, h' => by
    simp only [FInt.holds]; exact (holdsL_congr fs h h').2.2
  | .eqv a b, ρ, σ, h, h' => by
    simp only [FInt.holds]
    rw [holds_congr a (fun n hn => h n (.inl hn)) (fun n hn => h' n (.inl hn)),
      holds_congr b (fun n hn => h n (.inr hn)) (fun n hn => h' n (.inr hn))]
  | .all vs f, ρ, σ, h, h' => by
    simp only [FInt.holds]
    constructor
    · intro ha σ' hv
      obtain ⟨ρ', hv', e⟩ := variant_transport (P := fun n => freeIn n f) (fun n hn => (h n hn).symm) hv
      exact (holds_congr f (fun n hn => (e n hn).symm) h').1 (ha ρ' hv')
    · intro ha ρ' hv
      obtain ⟨σ', hv', e⟩ := variant_transport (P := fun n => freeIn n f) (fun n hn => h n hn) hv
      exact (holds_congr f e h').2 (ha σ' hv')
  | .ex vs f, ρ, σ, h, h' => by
    simp only [FInt.holds]
    constructor
    · rintro ⟨ρ', hv, ha⟩
      obtain ⟨σ', hv', e⟩ := variant_transport (P := fun n => freeIn n f) (fun n hn => h n hn) hv
      exact ⟨σ', hv', (holds_congr f e h').1 ha⟩
    · rintro ⟨σ', hv, ha⟩
      obtain ⟨ρ', hv', e⟩ := variant_transport (P := fun n => freeIn n f) (fun n hn => (h n hn).symm) hv
      exact ⟨ρ', hv', (holds_congr f (fun n hn => (e n hn).symm) h').2 ha⟩
theorem holdsL_congr {I J : FInt D} : ∀ (fs : List Frm) {ρ σ : Nm → D}, (∀ n, freeInL n fs → ρ n = σ n) →
    (∀ n, headInL n fs → I.fn n = J.fn n ∧ I.pr n = J.pr n) →
    (I.holdsAll ρ fs ↔ J.holdsAll σ fs) ∧ (I.holdsAny ρ fs ↔ J.holdsAny σ fs) ∧
      (I.holdsImp ρ fs ↔ J.holdsImp σ fs)
  | [], ρ, σ, h, h' => by simp [FInt.holdsAll, FInt.holdsAny, FInt.holdsImp]
  | f :: fs, ρ, σ, h, h' => by
    have e := holds_congr f (fun n hn => h n (.inl hn)) (fun n hn => h' n (.inl hn))
    obtain ⟨e1, e2, e3⟩ := holdsL_congr fs (fun n hn => h n (.inr hn)) (fun n hn => h' n (.inr hn))
    refine ⟨?_, ?_, ?_⟩
    · simp only [FInt.holdsAll, e, e1]
    · simp only [FInt.holdsAny, e, e2]
    · cases fs with
      | nil => simp only [FInt.holdsImp, e]
      | cons g gs => rw [FInt.holdsImp, FInt.holdsImp, e, e3]
end

theorem holds_congr' {I : FInt D} (f : Frm) {ρ σ : Nm → D} (h : ∀ n, freeIn n f → ρ n = σ n) :
    I.holds ρ f ↔ I.holds σ f := holds_congr f h (fun _ _ => ⟨rfl, rfl⟩)

theorem Variant.refl (vs : List Nm) (ρ : Nm → D) : Variant vs ρ ρ := fun _ _ => rfl

theorem holds_and2 {I : FInt D} {a b : Frm} {ρ : Nm → D} :
    I.holds ρ (.and [a, b]) ↔ I.holds ρ a ∧ I.holds ρ b := by simp [FInt.holds, FInt.holdsAll]
theorem holds_or2 {I : FInt D} {a b : Frm} {ρ : Nm → D} :
    I.holds ρ (.or [a, b]) ↔ I.holds ρ a ∨ I.holds ρ b := by simp [FInt.holds, FInt.holdsAny]

/-- quantifying over other variables makes no difference if they agree on the free ones -/
theorem quant_vars {I : FInt D} (q : Bool) {vs us : List Nm} (f : Frm) (h : ∀ n, freeIn n f → (n ∈ vs ↔ n ∈ us))
    (ρ : Nm → D) : I.holds ρ (quant q vs f) ↔ I.holds ρ (quant q us f) := by
  have key : ∀ {vs us : List Nm}, (∀ n, freeIn n f → (n ∈ vs ↔ n ∈ us)) → ∀ ρ', Variant vs ρ ρ' →
      ∃ σ', Variant us ρ σ' ∧ ∀ n, freeIn n f → ρ' n = σ' n := by
    intro vs us h ρ' hv
    refine ⟨fun n => if n ∈ us then ρ' n else ρ n, fun n hn => by simp [hn], fun n hn => ?_⟩
    by_cases hu : n ∈ us
    · simp [hu]
    · simp only [hu, if_false]
      exact hv n (fun hv => hu ((h n hn).1 hv))
  have h' : ∀ n, freeIn n f → (n ∈ us ↔ n ∈ vs) := fun n hn => (h n hn).symm
  cases q
  · simp only [quant, Bool.false_eq_true, if_false, FInt.holds]
    constructor
    · rintro ⟨ρ', hv, ha⟩
      obtain ⟨σ', hs, e⟩ := key h ρ' hv
      exact ⟨σ', hs, (holds_congr' f e).1 ha⟩
    · rintro ⟨ρ', hv, ha⟩
      obtain ⟨σ', hs, e⟩ := key h' ρ' hv
      exact ⟨σ', hs, (holds_congr' f e).1 ha⟩
  · simp only [quant, if_true, FInt.holds]
    constructor
    · intro ha ρ' hv
      obtain ⟨σ', hs, e⟩ := key h' ρ' hv
      exact (holds_congr' f e).2 (ha σ' hs)
    · intro ha ρ' hv
      obtain ⟨σ', hs, e⟩ := key h ρ' hv
      exact (holds_congr' f e).2 (ha σ' hs)

/-- quantifying over nothing relevant -/
theorem quant_none {I : FInt D} (q : Bool) {vs : List Nm} (f : Frm) (h : ∀ n, freeIn n f → n ∉ vs)
    (ρ : Nm → D) : I.holds ρ (quant q vs f) ↔ I.holds ρ f := by
  have e : ∀ ρ', Variant vs ρ ρ' → (I.holds ρ' f ↔ I.holds ρ f) := fun ρ' hv =>
    holds_congr' f (fun n hn => hv n (h n hn))
  cases q
  · simp only [quant, Bool.false_eq_true, if_false, FInt.holds]
    exact ⟨fun ⟨ρ', hv, ha⟩ => (e ρ' hv).1 ha, fun ha => ⟨ρ, .refl _ _, ha⟩⟩
  · simp only [quant, if_true, FInt.holds]
    exact ⟨fun ha => ha ρ (.refl _ _), fun ha ρ' hv => (e ρ' hv).2 ha⟩
end

end Gkc.Clausify
