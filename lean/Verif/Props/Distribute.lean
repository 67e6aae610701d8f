import Verif.DistEnds
/-
C29: distribution, definitions, flattening.
-/
namespace Gkc.Props
open Gkc.Clausify

/-- the constants true and false mean what they say (also when quoted, which the code does not tell
apart) -/
def TruthOk {D : Type} (I : FInt D) : Prop :=
  ∀ n : Nm, n.ty % 100 = 7 → (n.str = "$true" → I.pr n []) ∧ (n.str = "$false" → ¬ I.pr n [])

/-- truth of a flat clause -/
def FCl.Holds {D : Type} (I : FInt D) (ρ : Nm → D) : FCl → Prop
  | .tru => True
  | .lits ls => ∃ l ∈ ls, I.holds ρ l

section
variable {D : Type} {I : FInt D} (hI : TruthOk I) (ρ : Nm → D)
include hI

theorem logconst_ok (n : Nm) : (logconst n = 1 → I.pr n []) ∧ (logconst n = -1 → ¬ I.pr n []) ∧
    (logconst n = 0 ∨ logconst n = 1 ∨ logconst n = -1) := by
  unfold logconst
  split
  · rename_i h
    split
    · rename_i h'
      exact ⟨fun _ => (hI n h).1 h', by simp, .inr (.inl rfl)⟩
    · split
      · rename_i h'
        exact ⟨by simp, fun _ => (hI n h).2 h', .inr (.inr rfl)⟩
      · exact ⟨by simp, by simp, .inl rfl⟩
  · exact ⟨by simp, by simp, .inl rfl⟩

theorem truthOf_ok (f : Frm) : (truthOf f = 1 → I.holds ρ f) ∧ (truthOf f = -1 → ¬ I.holds ρ f) ∧
    (truthOf f = 0 ∨ truthOf f = 1 ∨ truthOf f = -1) := by
  unfold truthOf
  split
  · rename_i n
    exact logconst_ok hI n
  · rename_i n
    have := logconst_ok hI n
    simp only [FInt.holds, FInt.atom]
    refine ⟨fun h => this.2.1 (by omega), fun h h' => h' (this.1 (by omega)), by omega⟩
  · exact ⟨by simp, by simp, .inl rfl⟩

/-- an or-tree and its flat clause -/
theorem flatOr_ok {f : Frm} (hf : Cls f) : ∃ c, flatOr f = some c ∧ (FCl.Holds I ρ c ↔ I.holds ρ f) ∧
    ∀ ls, c = .lits ls → ∀ l ∈ ls, Lit l ∧ ∀ m, freeIn m l → freeIn m f := by
  induction hf with
  | @lit f h =>
    have e : flatOr f = some (.lits [f]) := by
      cases h with
      | «at» t => rw [flatOr] <;> simp
      | neg t => rw [flatOr] <;> simp
    refine ⟨_, e, by simp [FCl.Holds], fun ls e l hl => ?_⟩
    cases e
    simp only [List.mem_singleton] at hl
    subst hl
    exact ⟨h, fun _ h => h⟩
  | @or a b _ _ iha ihb =>
    obtain ⟨ca, ea, ha, la⟩ := iha
    obtain ⟨cb, eb, hb, lb⟩ := ihb
    have ta := truthOf_ok hI ρ a
    have tb := truthOf_ok hI ρ b
    have fa : ∀ m, freeIn m a → freeIn m (.or [a, b]) := fun m h => by simp [freeIn, freeInL, h]
    have fb : ∀ m, freeIn m b → freeIn m (.or [a, b]) := fun m h => by simp [freeIn, freeInL, h]
    rw [flatOr, holds_or2]
    split
    · rw [ea, eb]
      simp only [Option.bind_some, Option.map_some]
      cases ca with
      | tru => exact ⟨_, rfl, by simpa [FCl.Holds] using .inl (ha.1 trivial), fun ls e => by cases e⟩
      | lits la' =>
        cases cb with
        | tru => exact ⟨_, rfl, by simpa [FCl.Holds] using .inr (hb.1 trivial), fun ls e => by cases e⟩
        | lits lb' =>
          refine ⟨_, rfl, ?_, fun ls e l hl => ?_⟩
          · rw [← ha, ← hb]
            simp only [FCl.Holds, List.mem_append, or_and_right, exists_or]
          · cases e
            rcases List.mem_append.1 hl with h | h
            · exact ⟨(la _ rfl l h).1, fun m hm => fa m ((la _ rfl l h).2 m hm)⟩
            · exact ⟨(lb _ rfl l h).1, fun m hm => fb m ((lb _ rfl l h).2 m hm)⟩
    · rename_i h0
      split
      · rename_i h1
        exact ⟨_, rfl, ⟨fun _ => h1.imp ta.1 tb.1, fun _ => trivial⟩, fun ls e => by cases e⟩
      · rename_i h1
        split
        · rename_i h2
          exact ⟨cb, eb, hb.trans ⟨.inr, fun h => h.resolve_left (ta.2.1 h2)⟩,
            fun ls e l hl => ⟨(lb ls e l hl).1, fun m hm => fb m ((lb ls e l hl).2 m hm)⟩⟩
        · rename_i h2
          exact ⟨ca, ea, ha.trans ⟨.inl, fun h => h.resolve_right (tb.2.1 (by omega))⟩,
            fun ls e l hl => ⟨(la ls e l hl).1, fun m hm => fa m ((la ls e l hl).2 m hm)⟩⟩

theorem flat_ok {f : Frm} (hf : Cnf f) : ∃ cs, flat f = some cs ∧ ((∀ c ∈ cs, FCl.Holds I ρ c) ↔ I.holds ρ f) ∧
    ∀ ls, .lits ls ∈ cs → ∀ l ∈ ls, Lit l ∧ ∀ m, freeIn m l → freeIn m f := by
  induction hf with
  | @cls f h =>
    obtain ⟨c, e, hc, hl⟩ := flatOr_ok hI ρ h
    have e' : flat f = some [c] := by
      cases h with
      | lit h =>
        cases h with
        | «at» t => rw [flat]; · simp [e]
                    all_goals simp
        | neg t => rw [flat]; · simp [e]
                   all_goals simp
      | or _ _ => rw [flat]; · simp [e]
                  all_goals simp
    exact ⟨_, e', by simpa using hc, fun ls h => hl ls (by simp only [List.mem_singleton] at h; exact h.symm)⟩
  | @and a b _ _ iha ihb =>
    obtain ⟨ca, ea, ha, la⟩ := iha
    obtain ⟨cb, eb, hb, lb⟩ := ihb
    refine ⟨ca ++ cb, by simp [flat, ea, eb], ?_, fun ls h l hl => ?_⟩
    · rw [holds_and2, ← ha, ← hb]
      simp only [List.mem_append, or_imp, forall_and]
    · rcases List.mem_append.1 h with h | h
      · exact ⟨(la ls h l hl).1, fun m hm => by simp [freeIn, freeInL, (la ls h l hl).2 m hm]⟩
      · exact ⟨(lb ls h l hl).1, fun m hm => by simp [freeIn, freeInL, (lb ls h l hl).2 m hm]⟩
end


/-- C29: distribution gives clauses.  If the clauses (with definitions) are true for all values of
variables, so is the formula; if the formula is, then so are the clauses after giving a meaning to
the new predicates alone.  (Partial: the names of the new predicates must be unused.) -/
theorem C29_distribute_equisatisfiable_partial {strat : Bool} {fuel nr : Nat} {f g : Frm} {s' : DSt} (hf : QFree f)
    (fresh : ∀ n k, freeIn n f → nr < k → n ≠ dfName k) (h : dist strat fuel false f ⟨none, nr⟩ = some (g, s')) :
    Cnf (withDefs g s') ∧ nr ≤ s'.nr ∧
    (∀ m, freeIn m (withDefs g s') → freeIn m f ∨ ∃ k, nr < k ∧ k ≤ s'.nr ∧ m = dfName k ∨ k ≤ nr ∧ m = dfName k) ∧
    (∀ {D : Type} (I : FInt D) (ρ : Nm → D), (∀ τ, SameC ρ τ → I.holds τ (withDefs g s')) →
      ∀ τ, SameC ρ τ → I.holds τ f) ∧
    ∀ {D : Type} (I : FInt D) (ρ : Nm → D), (∀ τ, SameC ρ τ → I.holds τ f) → ∃ P : Nm → List D → Prop,
      (∀ n, (∀ k, nr < k → k ≤ s'.nr → n ≠ dfName k) → P n = I.pr n) ∧
      ∀ τ, SameC ρ τ → (⟨I.fn, P⟩ : FInt D).holds τ (withDefs g s') := by
  have fi : FIn (fun m => freeIn m f) nr f := fun m hm => .inl hm
  have hN : ∀ k, freeIn (dfName k) f → k ≤ nr := fun k hk => Nat.le_of_not_lt (fun hlt => fresh _ k hk hlt rfl)
  have o := dist_res (fun m => freeIn m f) strat fuel false f ⟨none, nr⟩ g s' hf fi (fun d e => by cases e) hN h
  have wd : ∀ {D : Type} (I : FInt D) (ρ : Nm → D), (∀ τ, SameC ρ τ → I.holds τ (withDefs g s')) ↔
      DH I ρ s'.defs ∧ ∀ τ, SameC ρ τ → I.holds τ g := by
    intro D I ρ
    unfold withDefs DH
    cases s'.defs with
    | none => simp
    | some d =>
      simp only [holds_and2, Option.some.injEq]
      constructor
      · exact fun h => ⟨fun g e τ hτ => e ▸ (h τ hτ).2, fun τ hτ => (h τ hτ).1⟩
      · exact fun h τ hτ => ⟨h.2 τ hτ, h.1 d rfl τ hτ⟩
  refine ⟨?_, o.step.nr, fun m hm => ?_, fun {D} I ρ hh τ hτ => ?_, fun {D} I ρ hh => ?_⟩
  · unfold withDefs
    cases e : s'.defs with
    | none => exact o.cnf
    | some d => exact .and o.cnf (o.sin d e).1
  · have hm' : In (fun m => freeIn m f) s'.nr m := by
      unfold withDefs at hm
      cases e : s'.defs with
      | none => rw [e] at hm; exact o.fin m hm
      | some d =>
        rw [e] at hm
        simp only [freeIn, freeInL, or_false] at hm
        exact hm.elim (o.fin m) ((o.sin d e).2 m)
    refine hm'.imp id (fun ⟨k, hk, e⟩ => ⟨k, ?_⟩)
    by_cases hkn : nr < k
    · exact .inl ⟨hkn, hk, e⟩
    · exact .inr ⟨by omega, e⟩
  · have := (wd I ρ).1 hh
    exact (o.eqv D I ρ this.1 τ hτ).2 (this.2 τ hτ)
  · obtain ⟨P, e, hd⟩ := o.step.forth I ρ (fun g e => by cases e)
    refine ⟨P, e, (wd ⟨I.fn, P⟩ ρ).2 ⟨hd, fun τ hτ => (o.eqv D _ ρ hd τ hτ).1 ?_⟩⟩
    exact (holds_pr hf (fun n hn => e n (fun k hk _ => fresh n k hn hk))).2 (hh τ hτ)

/-- the outcome without the definition strategy -/
structure PRes (f : Frm) (s : DSt) (g : Frm) (s' : DSt) : Prop where
  same : s' = s
  cnf : Cnf g
  eqv : ∀ {D : Type} (I : FInt D) (ρ : Nm → D), I.holds ρ f ↔ I.holds ρ g

theorem dist_plain : ∀ (n : Nat) (indef : Bool) (f : Frm) (s : DSt) (g : Frm) (s' : DSt), QFree f →
    dist false n indef f s = some (g, s') → PRes f s g s' := by
  intro n
  induction n with
  | zero => intro indef f s g s' _ h; simp [dist] at h
  | succ n ih =>
    intro indef f s g s' hf h
    cases hf with
    | «at» t =>
      simp only [dist, Option.some.injEq, Prod.mk.injEq] at h
      obtain ⟨rfl, rfl⟩ := h
      exact ⟨rfl, .cls (.lit (.at t)), fun _ _ => Iff.rfl⟩
    | neg t =>
      simp only [dist, Option.some.injEq, Prod.mk.injEq] at h
      obtain ⟨rfl, rfl⟩ := h
      exact ⟨rfl, .cls (.lit (.neg t)), fun _ _ => Iff.rfl⟩
    | @and a b ha hb =>
      simp only [dist] at h
      obtain ⟨⟨r1, s1⟩, e1, h⟩ := Option.bind_eq_some_iff.1 h
      obtain ⟨⟨r2, s2⟩, e2, h⟩ := Option.map_eq_some_iff.1 h
      simp only [Prod.mk.injEq] at h
      obtain ⟨rfl, rfl⟩ := h
      have o1 := ih _ _ _ _ _ ha e1
      have o2 := ih _ _ _ _ _ hb e2
      exact ⟨o2.same.trans o1.same, .and o1.cnf o2.cnf, fun I ρ => by
        rw [holds_and2, holds_and2, o1.eqv, o2.eqv]⟩
    | @or a b ha hb =>
      simp only [dist] at h
      obtain ⟨⟨r1, s1⟩, e1, h⟩ := Option.bind_eq_some_iff.1 h
      obtain ⟨⟨r2, s2⟩, e2, h⟩ := Option.bind_eq_some_iff.1 h
      have o1 := ih _ _ _ _ _ ha e1
      have o2 := ih _ _ _ _ _ hb e2
      have top : ∀ {g s'}, PRes (.or [r1, r2]) s2 g s' → PRes (.or [a, b]) s g s' := fun o =>
        ⟨o.same.trans (o2.same.trans o1.same), o.cnf, fun I ρ => by
          rw [← o.eqv, holds_or2, holds_or2, o1.eqv, o2.eqv]⟩
      apply top
      simp only at h
      split at h
      · rename_i h1 h2
        simp only [Option.some.injEq, Prod.mk.injEq] at h
        obtain ⟨rfl, rfl⟩ := h
        exact ⟨rfl, .cls (.or (o1.cnf.cls_of h1) (o2.cnf.cls_of h2)), fun _ _ => Iff.rfl⟩
      · rename_i a1 a2 h1 h2
        obtain ⟨⟨r3, s3⟩, e3, h⟩ := Option.bind_eq_some_iff.1 h
        obtain ⟨⟨r4, s4⟩, e4, h⟩ := Option.map_eq_some_iff.1 h
        simp only [Prod.mk.injEq] at h
        obtain ⟨rfl, rfl⟩ := h
        obtain ⟨er, c1, c2⟩ := o1.cnf.args h1
        subst er
        have o3 := ih _ _ _ _ _ (.or c1.qf o2.cnf.qf) e3
        have o4 := ih _ _ _ _ _ (.or c2.qf o2.cnf.qf) e4
        refine ⟨o4.same.trans o3.same, .and o3.cnf o4.cnf, fun I ρ => ?_⟩
        rw [holds_and2, ← o3.eqv, ← o4.eqv, holds_or2, holds_or2, holds_or2, holds_and2, and_or_right]
      · rename_i a1 a2 h1 h2
        obtain ⟨⟨r3, s3⟩, e3, h⟩ := Option.bind_eq_some_iff.1 h
        obtain ⟨⟨r4, s4⟩, e4, h⟩ := Option.map_eq_some_iff.1 h
        simp only [Prod.mk.injEq] at h
        obtain ⟨rfl, rfl⟩ := h
        obtain ⟨er, c1, c2⟩ := o2.cnf.args h2
        have o3 := ih _ _ _ _ _ (.or c2.qf o1.cnf.qf) e3
        have o4 := ih _ _ _ _ _ (.or c1.qf o1.cnf.qf) e4
        subst er
        refine ⟨o4.same.trans o3.same, .and o3.cnf o4.cnf, fun I ρ => ?_⟩
        rw [holds_and2, ← o3.eqv, ← o4.eqv, holds_or2, holds_or2, holds_or2, holds_and2, or_and_left,
          @or_comm (I.holds ρ a2), @or_comm (I.holds ρ a1)]
        exact and_comm
      · rename_i a1 a2 a3 a4 h1 h2
        simp only [Bool.false_and, Bool.false_eq_true, if_false] at h
        obtain ⟨⟨r3, s3⟩, e3, h⟩ := Option.bind_eq_some_iff.1 h
        obtain ⟨⟨r4, s4⟩, e4, h⟩ := Option.bind_eq_some_iff.1 h
        obtain ⟨⟨r5, s5⟩, e5, h⟩ := Option.bind_eq_some_iff.1 h
        obtain ⟨⟨r6, s6⟩, e6, h⟩ := Option.map_eq_some_iff.1 h
        simp only [Prod.mk.injEq] at h
        obtain ⟨rfl, rfl⟩ := h
        obtain ⟨er, c1, c2⟩ := o1.cnf.args h1
        obtain ⟨er', c3, c4⟩ := o2.cnf.args h2
        have o3 := ih _ _ _ _ _ (.or c1.qf c3.qf) e3
        have o4 := ih _ _ _ _ _ (.or c1.qf c4.qf) e4
        have o5 := ih _ _ _ _ _ (.or c2.qf c3.qf) e5
        have o6 := ih _ _ _ _ _ (.or c2.qf c4.qf) e6
        subst er
        subst er'
        refine ⟨o6.same.trans (o5.same.trans (o4.same.trans o3.same)),
          .and o3.cnf (.and o4.cnf (.and o5.cnf o6.cnf)), fun I ρ => ?_⟩
        rw [holds_and2, holds_and2, holds_and2, ← o3.eqv, ← o4.eqv, ← o5.eqv, ← o6.eqv]
        simp only [holds_or2, holds_and2]
        exact or_four

/-- C29: without the definition strategy the clauses are equivalent to the formula, whatever its
names, and nothing is defined -/
theorem C29_plain_distribution_equivalent {fuel : Nat} {indef : Bool} {f g : Frm} {s s' : DSt} (hf : QFree f)
    (h : dist false fuel indef f s = some (g, s')) :
    Cnf g ∧ s' = s ∧ ∀ {D : Type} (I : FInt D) (ρ : Nm → D), I.holds ρ f ↔ I.holds ρ g :=
  have o := dist_plain _ _ _ _ _ _ hf h
  ⟨o.cnf, o.same, o.eqv⟩

/-- C29: distribution ends: with enough depth the result is there and does not depend on it.  The
variables of the formula must fit in the array of the definition maker. -/
theorem C29_distribution_ends (strat indef : Bool) {f : Frm} (hf : QFree f) {L : List Nm} (hl : L.length ≤ 999)
    (hv : ∀ n, freeIn n f → n.ty = 14 → n ∈ L) (s : DSt) :
    ∃ g s' n0, ∀ n, n0 ≤ n → dist strat n indef f s = some (g, s') := by
  obtain ⟨g, s', ⟨n0, h⟩, _⟩ := runs_qf (strat := strat) (indef := indef) hl hf s hv
  exact ⟨g, s', n0, h⟩

/-- C29: flattening gives clauses equivalent to the formula, made of literals with its names -/
theorem C29_flatten_equivalent {f : Frm} (hf : Cnf f) : ∃ cs, flat f = some cs ∧
    (∀ ls, .lits ls ∈ cs → ∀ l ∈ ls, Lit l ∧ ∀ m, freeIn m l → freeIn m f) ∧
    ∀ {D : Type} (I : FInt D) (ρ : Nm → D), TruthOk I → ((∀ c ∈ cs, FCl.Holds I ρ c) ↔ I.holds ρ f) := by
  have one : TruthOk (⟨fun _ _ => (), fun n _ => n.str = "$true"⟩ : FInt Unit) := fun n _ =>
    ⟨id, fun h h' => absurd (h.symm.trans h') (by decide)⟩
  obtain ⟨cs, e, _, hl⟩ := flat_ok one (fun _ => ()) hf
  refine ⟨cs, e, hl, fun {D} I ρ hI => ?_⟩
  obtain ⟨cs', e', h', _⟩ := flat_ok hI ρ hf
  rw [e] at e'
  cases e'
  exact h'


/-! ### Cases -/

/-- an atom without arguments -/
def prop (w : String) : Frm := .at (.nm (uri w))

/-- one atom eight times -/
def eight (w : String) : Frm :=
  let two := Frm.and [prop w, prop w]
  let four := Frm.and [two, two]
  .and [four, four]

/-- a disjunction large enough for two definitions -/
def exDist : Frm := .or [eight "p", eight "q"]

theorem eight_qf (w : String) : QFree (eight w) :=
  .and (.and (.and (.at _) (.at _)) (.and (.at _) (.at _))) (.and (.and (.at _) (.at _)) (.and (.at _) (.at _)))

theorem eight_free {n : Nm} {w : String} (h : freeIn n (eight w)) : n = uri w := by
  simpa [eight, prop, freeIn, freeInL, namesT] using h

example : QFree exDist ∧ (∀ n k, freeIn n exDist → 0 < k → n ≠ dfName k) ∧
    ∃ s', dist true 20 false exDist ⟨none, 0⟩ = some (.or [prop "$df1", prop "$df2"], s') ∧ s'.defs.isSome ∧ s'.nr = 2 := by
  refine ⟨.or (eight_qf _) (eight_qf _), fun n k h _ e => ?_, _, rfl, rfl, rfl⟩
  have hs : n.str = "p" ∨ n.str = "q" := by
    simp only [exDist, freeIn, freeInL, or_false] at h
    exact h.imp (fun h => congrArg Nm.str (eight_free h)) (fun h => congrArg Nm.str (eight_free h))
  have e1 : n.str.toList.head? = some '$' := by rw [e]; simp [dfName, uri]
  rcases hs with h | h <;> rw [h] at e1 <;> simp at e1

/-- p or (q and r(X)) -/
def exDist2 : Frm := .or [prop "p", .and [prop "q", .at (.app (uri "r") [.nm (newVar 1)])]]

example : QFree exDist2 ∧ (∀ n, freeIn n exDist2 → n.ty = 14 → n ∈ [newVar 1]) ∧
    dist false 5 false exDist2 ⟨none, 0⟩ = some (.and [.or [.at (.app (uri "r") [.nm (newVar 1)]), prop "p"],
      .or [prop "q", prop "p"]], ⟨none, 0⟩) := by
  refine ⟨.or (.at _) (.and (.at _) (.at _)), fun n h h14 => ?_, rfl⟩
  simp [exDist2, prop, freeIn, freeInL, namesT, namesTL] at h
  rcases h with h | h | h | h <;> subst h <;> simp_all [uri]

/-- (p or $false) and (q or $true) -/
def exFlat : Frm := .and [.or [prop "p", prop "$false"], .or [prop "q", prop "$true"]]

example : Cnf exFlat ∧ flat exFlat = some [.lits [prop "p"], .tru] :=
  ⟨.and (.cls (.or (.lit (.at _)) (.lit (.at _)))) (.cls (.or (.lit (.at _)) (.lit (.at _)))), rfl⟩

/-- C29, what is missing: `$df1` may be written by the user (the lexer accepts it), and then meets the
first new predicate.  The formula here is true in some interpretation, its clauses in none. -/
theorem C29_user_newpred_name_unsound : ∃ (f g : Frm) (s' : DSt), QFree f ∧
    dist true 20 false f ⟨none, 0⟩ = some (g, s') ∧ (∃ (I : FInt Unit) (ρ : Nm → Unit), I.holds ρ f) ∧
    ∀ {D : Type} (J : FInt D) (σ : Nm → D), ¬ J.holds σ g := by
  refine ⟨.and [exDist, .and [.neg (prop "$df1"), .neg (prop "$df2")]],
    .and [.or [prop "$df1", prop "$df2"], .and [.neg (prop "$df1"), .neg (prop "$df2")]], _,
    .and (.or (eight_qf _) (eight_qf _)) (.and (.neg _) (.neg _)), rfl,
    ⟨⟨fun _ _ => (), fun n _ => n = uri "p"⟩, fun _ => (), ?_⟩, fun J σ => ?_⟩
  · have h1 : uri "$df1" ≠ uri "p" := by decide
    have h2 : uri "$df2" ≠ uri "p" := by decide
    simp [exDist, eight, prop, FInt.holds, FInt.holdsAll, FInt.holdsAny, FInt.atom, h1, h2]
  · simp only [prop, FInt.holds, FInt.holdsAll, FInt.holdsAny, FInt.atom]
    rintro ⟨h | h | h, ⟨h1, h2, _⟩, _⟩
    · exact h1 h
    · exact h2 h
    · exact h

/-- C29, a finding: the quoted name '$true' (an ordinary predicate in TPTP) is taken for the constant,
and the clause is dropped.  Its negation, added as another formula, gives no contradiction. -/
theorem C29_quoted_true_dropped : ∃ n : Nm, n ≠ uri "$true" ∧
    flat (.or [.at (.nm n), .at (.nm n)]) = some [.tru] ∧
    ∃ (I : FInt Unit) (ρ : Nm → Unit), I.pr (uri "$true") [] ∧ ¬ I.holds ρ (.or [.at (.nm n), .at (.nm n)]) := by
  refine ⟨⟨107, "$true"⟩, by decide, rfl, ⟨fun _ _ => (), fun n _ => n = uri "$true"⟩, fun _ => (), rfl, ?_⟩
  have : (⟨107, "$true"⟩ : Nm) ≠ uri "$true" := by decide
  simp [FInt.holds, FInt.holdsAny, FInt.atom, this]

end Gkc.Props
