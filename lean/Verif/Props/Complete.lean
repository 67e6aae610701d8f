import Verif.LoopSound
import Verif.LoopFair
import Verif.Props.ClausalBack
/-
C61: a search that ends without a proof and without having thrown away a clause for its size shows that
the clauses can all be true; a search that ends with a proof shows that they cannot.
C62: a fair search finds a proof if there is one.
-/
namespace Gkc.Props
open Gkc Gkc.Loop Gkc.Clausify
open Gkc.Term (vars varsL)

mutual
/-- number of symbols and variables of a term -/
def symbols : Term → Nat
  | .var _ => 1
  | .const _ => 1
  | .app _ as => 1 + symbolsL as
/-- number of symbols and variables of a list of terms -/
def symbolsL : List Term → Nat
  | [] => 0
  | a :: as => symbols a + symbolsL as
end

mutual
/-- the term read from left to right: `false` for a variable, `true` for any other symbol -/
def reading : Term → List Bool
  | .var _ => [false]
  | .const _ => [true]
  | .app _ as => true :: readingL as
/-- a list of terms read from left to right -/
def readingL : List Term → List Bool
  | [] => []
  | a :: as => reading a ++ readingL as
end

/-- number of symbols before the first variable -/
def leading (t : Term) : Nat := ((reading t).takeWhile id).length

/-- A literal of an ordinary problem: the atom is a predicate with arguments, not an equation and not an
answer; a proposition `c` is written `$pr(c)`, and it is not one of the truth constants; the variables are
those of the first four banks and there are at most 2147 symbols before the first of them. -/
structure PlainLit (l : Gkc.Lit) : Prop where
  atom : ∃ p as, l.atom = .app p as ∧ as ≠ [] ∧ p ≠ .sym "=" ∧ p ≠ .sym "$ans" ∧
    (p = .sym "$pr" → ∃ c, as = [.const c] ∧ c ≠ .sym "$true" ∧ c ≠ .sym "$false")
  vars : ∀ w ∈ Term.vars l.atom, w < 4000
  size : leading l.atom ≤ 2147

/-- a problem of ordinary clauses -/
def PlainProblem (input : List (List Gkc.Lit)) : Prop := ∀ C ∈ input, C ≠ [] ∧ ∀ l ∈ C, PlainLit l

/-- clauses with at most 1000 variables, which is all there are in the program -/
def FewVars (C : List Gkc.Lit) : Prop :=
  (∀ l ∈ C, ∃ p as, l.atom = .app p as) ∧ ∃ vs : List Nat, vs.length ≤ 1000 ∧ ∀ l ∈ C, ∀ v ∈ Term.vars l.atom, v ∈ vs

mutual
/-- the constants, function symbols and predicates of a term -/
def names : Term → List Const
  | .var _ => []
  | .const c => [c]
  | .app f as => f :: namesL as
/-- the constants, function symbols and predicates of a list of terms -/
def namesL : List Term → List Const
  | [] => []
  | a :: as => names a ++ namesL as
end

/-- the names that occur in a problem -/
def Mentioned (input : List (List Gkc.Lit)) (c : Const) : Prop := ∃ C ∈ input, ∃ l ∈ C, c ∈ names l.atom

/-- clauses with few variables that mention only names of `S` -/
def Ordinary (S : Const → Prop) (C : List Gkc.Lit) : Prop := FewVars C ∧ ∀ l ∈ C, ∀ c ∈ names l.atom, S c

/-- A way of choosing the literals to resolve upon that loses no proofs from clauses with the names `S` (see C63):
for some well-ordering of atoms, each clause has either a literal of the preferred sign or all its largest literals
chosen; how variables are called does not matter. -/
structure Selection (S : Const → Prop) (sel : List Gkc.Lit → Nat → Bool) : Prop where
  choice : Complete.Choice (Ordinary S) sel
  same : ∀ (C : List Gkc.Lit) (ren : Nat → Nat), Ordinary S C → (∀ v w, v ∈ clVars C → w ∈ clVars C → ren v = ren w → v = w) →
    sel (C.map (Lit.subst fun v => .var (ren v))) = sel C

theorem selection_all {S : Const → Prop} : Selection S fun _ _ => true := ⟨Complete.choice_all _, fun _ _ _ _ => rfl⟩

/-- What is assumed of the parameters: hashes are in range, sorting keeps the literals, and clauses with an atom of
more than 2147 symbols before the first variable are thrown away, as they are when g->cl_keep_sizelimit is set to at most that. -/
structure Fitting (S : Const → Prop) (o : Opt) : Prop where
  hash : ∀ c, 1 ≤ o.h c ∧ o.h c ≤ 999997
  sort : ∀ c, (o.sort c).Perm c
  keep : ∀ r, o.keep r = true → ∀ l ∈ r, leading l.atom ≤ 2147
  sel : Selection S o.sel

/-- a structure that reads `=` and the truth constants as they are meant, with two different elements -/
structure Regular (M : FO) : Prop where
  eq : ∀ a b, M.pr (.sym "=") [a, b] ↔ a = b
  tr : M.pr (.sym "$pr") [M.cst (.sym "$true")]
  fa : ¬ M.pr (.sym "$pr") [M.cst (.sym "$false")]
  two : ∃ a b : M.D, a ≠ b

/-- the clauses can all be true -/
def Satisfiable (input : List (List Gkc.Lit)) : Prop := ∃ M : FO, Regular M ∧ ∀ C ∈ input, M.holds C

mutual
theorem syms_reading : ∀ t : Term, (syms t).map Option.isSome = reading t
  | .var _ => rfl
  | .const _ => rfl
  | .app _ as => by simp only [syms, reading, List.map_cons, symsL_reading as, Option.isSome_some]
theorem symsL_reading : ∀ as : List Term, (symsL as).map Option.isSome = readingL as
  | [] => rfl
  | a :: as => by simp only [symsL, readingL, List.map_append, syms_reading a, symsL_reading as]
end

theorem tw_reading : ∀ l : List (Option Const), (tw l).length = ((l.map Option.isSome).takeWhile id).length
  | [] => rfl
  | none :: _ => by simp [tw]
  | some _ :: l => by simp [tw, tw_reading l]

theorem short_of_leading {t : Term} (h : leading t ≤ 2147) : Short t := by
  simp only [Short, pre, tw_reading, syms_reading]
  exact h

mutual
theorem reading_symbols : ∀ t : Term, (reading t).length = symbols t
  | .var _ => rfl
  | .const _ => rfl
  | .app _ as => by simp only [reading, symbols, List.length_cons, readingL_symbols as]; omega
theorem readingL_symbols : ∀ as : List Term, (readingL as).length = symbolsL as
  | [] => rfl
  | a :: as => by simp only [readingL, symbolsL, List.length_append, reading_symbols a, readingL_symbols as]
end

theorem leading_le (t : Term) : leading t ≤ symbols t := by
  rw [← reading_symbols]
  exact (List.takeWhile_sublist _).length_le

mutual
theorem mem_names : ∀ (t : Term) (c : Const), c ∈ names t ↔ some c ∈ syms t
  | .var _, c => by simp [names, syms]
  | .const d, c => by simp [names, syms]
  | .app f as, c => by simp [names, syms, mem_namesL as c]
theorem mem_namesL : ∀ (as : List Term) (c : Const), c ∈ namesL as ↔ some c ∈ symsL as
  | [], c => by simp [namesL, symsL]
  | a :: as, c => by simp [namesL, symsL, mem_names a c, mem_namesL as c]
end

theorem over_iff {S : Const → Prop} {t : Term} : Loop.Over S t ↔ ∀ c ∈ names t, S c := by
  simp only [Loop.Over, mem_names]

theorem PlainLit.okl {S : Const → Prop} {l : Gkc.Lit} (h : PlainLit l) (hS : ∀ c ∈ names l.atom, S c) : Okl S l := by
  obtain ⟨p, as, e, _, _, h1, _⟩ := h.atom
  exact ⟨⟨⟨p, as, e, h1, over_iff.2 hS⟩, h.vars⟩, short_of_leading h.size⟩

theorem PlainProblem.okl {input : List (List Gkc.Lit)} (h : PlainProblem input) :
    ∀ C ∈ input, C ≠ [] ∧ ∀ l ∈ C, Okl (Mentioned input) l :=
  fun C hC => ⟨(h C hC).1, fun l hl => ((h C hC).2 l hl).okl fun _ hc => ⟨C, hC, l, hl, hc⟩⟩

theorem Fitting.ok {S : Const → Prop} {o : Opt} (h : Fitting S o) : o.Ok S :=
  ⟨h.hash, h.sort, fun r hr l hl => short_of_leading (h.keep r hr l hl), h.sel.choice.mono fun C hC =>
    ⟨⟨fun l hl => let ⟨p, as, e, _⟩ := (hC l hl).1.1.1; ⟨p, as, e⟩, (List.range 1000).map (· + 2000), by simp, fun l hl v hv => by
      have := (hC l hl).2 v hv
      exact List.mem_map.2 ⟨v - 2000, by simp; omega, by omega⟩⟩,
     fun l hl => let ⟨_, _, _, _, h⟩ := (hC l hl).1.1.1; over_iff.1 h⟩,
   fun C ren hs ho => h.sel.same C ren ⟨hs, fun l hl => over_iff.1 (ho l hl)⟩⟩

/-! ### A search that ends without a proof -/

theorem model_regular (I : Term → Prop) : Regular (Complete.model I) := by
  refine ⟨?_, ?_, ?_, ⟨Term.const (.sym "a"), Term.var 0, fun e => Term.noConfusion e⟩⟩
  · intro a b; simp [Complete.model]
  · simp [Complete.model]
  · simp [Complete.model]

/-- plain atoms mean in the structure of terms what the set of atoms says -/
theorem model_atom {l : Gkc.Lit} (h : PlainLit l) (I : Term → Prop) (ρ : Nat → Term) :
    (Complete.model I).atom ρ l.atom ↔ I (Term.subst ρ l.atom) := by
  obtain ⟨p, as, e, _, h1, _, h2⟩ := h.atom
  rw [e]
  have hs : Term.subst ρ (.app p as) = .app p (as.map (Term.subst ρ)) := by simp
  simp only [FO.atom, Complete.model_evalL]
  have hl := Term.substL_eq_map ρ as
  rw [hs, hl]
  unfold Complete.model
  simp only [h1, if_false]
  by_cases hp : p = .sym "$pr"
  · obtain ⟨c, rfl, n1, n2⟩ := h2 hp
    simp [hp, n1, n2]
  · simp [hp]

/-- C61: the search ends without a proof: the clauses can all be true. -/
theorem C61_finished_means_satisfiable {o : Opt} {input : List (List Gkc.Lit)} (ho : Fitting (Mentioned input) o) (hin : PlainProblem input) {k : Nat} {s : LState}
    (h : Loop.run o k (Loop.start o input) = .finished s) (hl : s.lost = false) : Satisfiable input := by
  obtain ⟨I, hI⟩ := finished_terms ho.ok hin.okl h hl
  refine ⟨Complete.model I, model_regular I, fun C hC ρ => ?_⟩
  obtain ⟨l', hl', ht⟩ := hI C hC ρ
  obtain ⟨l, hl, rfl⟩ := List.mem_map.1 hl'
  refine ⟨l, hl, ?_⟩
  have hm := model_atom ((hin C hC).2 l hl) I ρ
  have ht : if l.neg = true then ¬ I (Term.subst ρ l.atom) else I (Term.subst ρ l.atom) := ht
  cases hn : l.neg with
  | true => rw [hn] at ht; exact fun hc => ht (hm.1 hc)
  | false => rw [hn] at ht; exact hm.2 ht

/-! ### A search that ends with a proof -/

/-- the structure with truth constants standing alone read as they are meant -/
def fixTruth (M : FO) : FO := { M with pr := fun p as => if as = [] then p = aTrue else M.pr p as }

mutual
theorem fixTruth_eval (M : FO) (ρ : Nat → M.D) : ∀ t : Term, (fixTruth M).eval ρ t = M.eval ρ t
  | .var _ => rfl
  | .const _ => rfl
  | .app f as => by
    simp only [FO.eval]
    rw [fixTruth_evalL M ρ as]
    rfl
theorem fixTruth_evalL (M : FO) (ρ : Nat → M.D) : ∀ as : List Term, (fixTruth M).evalL ρ as = M.evalL ρ as
  | [] => rfl
  | a :: as => by
    simp only [FO.evalL]
    rw [fixTruth_eval M ρ a, fixTruth_evalL M ρ as]
    rfl
end

theorem fixTruth_atom {l : Gkc.Lit} (h : PlainLit l) (M : FO) (ρ : Nat → M.D) : (fixTruth M).atom ρ l.atom ↔ M.atom ρ l.atom := by
  obtain ⟨p, as, e, hne, _⟩ := h.atom
  rw [e]
  simp only [FO.atom]
  rw [fixTruth_evalL]
  have : M.evalL ρ as ≠ [] := by
    cases as with
    | nil => exact absurd rfl hne
    | cons a as => simp [FO.evalL]
  show (if M.evalL ρ as = [] then p = aTrue else M.pr p (M.evalL ρ as)) ↔ _
  rw [if_neg this]

/-- C61: the search ends with a proof: no structure at all makes every clause true. -/
theorem C61_proof_means_unsatisfiable {o : Opt} (ho : ∀ c, (o.sort c).Perm c) {input : List (List Gkc.Lit)} (hin : PlainProblem input) {k : Nat} {s : LState}
    (h : Loop.run o k (Loop.start o input) = .next s) (hr : s.st.refuted = true) (M : FO) [Nonempty M.D] : ∃ C ∈ input, ¬ M.holds C := by
  by_contra hcon
  have all : ∀ C ∈ input, M.holds C := fun C hC => Classical.byContradiction fun hn => hcon ⟨C, hC, hn⟩
  obtain ⟨d⟩ := ‹Nonempty M.D›
  have hI : Gkc.TruthOk (Interp.ofFO (fixTruth M)) := by
    refine ⟨?_, ?_⟩
    · show (if ([] : List M.D) = [] then aTrue = aTrue else M.pr aTrue [])
      simp
    · show ¬ (if ([] : List M.D) = [] then aFalse = aTrue else M.pr aFalse [])
      simp [aTrue, aFalse]
  refine refuted_false (I := Interp.ofFO (fixTruth M)) (d, True) hI ho (fun C hC l hl => ((hin.okl C hC).2 l hl).1) h hr fun C hC => ?_
  refine (ofFO_holds (fixTruth M) C fun l hl v e => ?_).2 fun ρ => ?_
  · obtain ⟨p, as, e', _⟩ := ((hin C hC).2 l hl).atom
    rw [e'] at e
    cases e
  · obtain ⟨l, hl, ht⟩ := all C hC ρ
    refine ⟨l, hl, ?_⟩
    have hm := fixTruth_atom ((hin C hC).2 l hl) M ρ
    split at ht
    · rename_i hn
      simp only [hn, if_true]
      exact fun hc => ht (hm.1 hc)
    · rename_i hn
      simp only [hn]
      exact hm.2 ht

/-- C61: a search cannot end in both ways, whatever the order of the clauses, the hash functions and the limits. -/
theorem C61_answers_agree {o o' : Opt} {input : List (List Gkc.Lit)} (ho : Fitting (Mentioned input) o) (ho' : ∀ c, (o'.sort c).Perm c) (hin : PlainProblem input)
    {k k' : Nat} {s s' : LState} (h : Loop.run o k (Loop.start o input) = .finished s) (hl : s.lost = false)
    (h' : Loop.run o' k' (Loop.start o' input) = .next s') : s'.st.refuted = false := by
  cases hr : s'.st.refuted with
  | false => rfl
  | true =>
    obtain ⟨M, hM, all⟩ := C61_finished_means_satisfiable ho hin h hl
    obtain ⟨a, _⟩ := hM.two
    haveI : Nonempty M.D := ⟨a⟩
    obtain ⟨C, hC, hn⟩ := C61_proof_means_unsatisfiable ho' hin h' hr M
    exact absurd (all C hC) hn

/-! ### From formulas to the answer -/

/-- C61: formulas are turned into clauses and the search is Loop.run on them.  Ending without a proof means that the
conjecture does not follow from the axioms; ending with one means that it does. -/
theorem C61_search_settles_conjecture {c : VarCfg} {strat : Bool} {fuel sn nr : Nat} {items : List Item} {fcs : List FCl}
    {lss : List (List Gkc.Lit)} (sg : Const → SRole) (hF : Fresh sn nr sg) (hp : sg (.sym "$pr") = .unused)
    (htr : sg (.sym "$true") = .prop) (hfa : sg (.sym "$false") = .prop) (ha : ∀ it ∈ items, Adm c sg it.frm)
    (hc : clausifyAll c strat fuel sn nr items = some fcs) (hb : buildAll c fcs = some lss) (hin : PlainProblem lss) {o : Opt} (ho : Fitting (Mentioned lss) o)
    {k : Nat} {s : LState} :
    (Loop.run o k (Loop.start o lss) = .finished s → s.lost = false → ¬ Follows c (fun M => ∃ a b : M.D, a ≠ b) items) ∧
    (Loop.run o k (Loop.start o lss) = .next s → s.st.refuted = true → Follows c (fun M => ∃ a b : M.D, a ≠ b) items) := by
  have hiff := C41_consequence_iff_contradictory sg hF hp htr hfa ha hc hb
  refine ⟨fun h hl hf => ?_, fun h hr => hiff.2 fun N ⟨a, _, _⟩ _ _ _ => ?_⟩
  · obtain ⟨M, hM, all⟩ := C61_finished_means_satisfiable ho hin h hl
    obtain ⟨C, hC, hn⟩ := hiff.1 hf M hM.two hM.eq hM.tr hM.fa
    exact hn (all C hC)
  · haveI : Nonempty N.D := ⟨a⟩
    exact C61_proof_means_unsatisfiable ho.sort hin h hr N

/-! ### Cases -/
namespace Cp

/-- options: the oldest clause is picked, derived clauses with more than `lim` symbols are thrown away -/
def opts (lim : Nat) : Opt where
  n := 40
  m := fun _ => 0
  h := fun _ => 7
  hb := fun _ => 5
  cap := 100
  ans := true
  sort := id
  pick := fun _ => 0
  pre := fun _ _ => true
  keep := fun r => r.all fun l => decide (symbols l.atom ≤ lim)
  sel := fun _ _ => true

theorem opts_fit {S : Const → Prop} {lim : Nat} (h : lim ≤ 2147) : Fitting S (opts lim) := by
  refine ⟨fun c => by simp [opts], fun c => .refl _, fun r hr l hl => ?_, selection_all⟩
  have hr : (r.all fun l => decide (symbols l.atom ≤ lim)) = true := hr
  have := List.all_eq_true.1 hr l hl
  simp only [decide_eq_true_eq] at this
  have := leading_le l.atom
  omega

def isFinished (r : Loop.Res) (lost : Bool) : Bool := match r with
  | .finished s => s.lost == lost && !s.st.refuted
  | _ => false
def isProof (r : Loop.Res) : Bool := match r with
  | .next s => s.st.refuted
  | _ => false

theorem isFinished_iff {r : Loop.Res} {b : Bool} (h : isFinished r b = true) : ∃ s, r = .finished s ∧ s.lost = b := by
  cases r <;> simp_all [isFinished]
theorem isProof_iff {r : Loop.Res} (h : isProof r = true) : ∃ s, r = .next s ∧ s.st.refuted = true := by
  cases r <;> simp_all [isProof]

/-- a check for ordinary literals -/
def plainB (l : Gkc.Lit) : Bool := match l.atom with
  | .app p as => !as.isEmpty && p != .sym "=" && p != .sym "$ans" && p != .sym "$pr" &&
      (vars l.atom).all (fun w => decide (w < 4000)) && decide (symbols l.atom ≤ 2147)
  | _ => false

theorem plainB_iff {l : Gkc.Lit} (h : plainB l = true) : PlainLit l := by
  unfold plainB at h
  split at h
  · rename_i p as e
    simp only [Bool.and_eq_true, Bool.not_eq_true', bne_iff_ne, ne_eq, decide_eq_true_eq, List.all_eq_true] at h
    obtain ⟨⟨⟨⟨⟨h1, h2⟩, h3⟩, h4⟩, h5⟩, h6⟩ := h
    refine ⟨⟨p, as, e, ?_, h2, h3, fun hp => absurd hp h4⟩, h5, (leading_le _).trans h6⟩
    rintro rfl
    simp at h1
  · cases h

theorem plain_of {input : List (List Gkc.Lit)} (h : (input.all fun C => !C.isEmpty && C.all plainB) = true) : PlainProblem input := by
  intro C hC
  have := List.all_eq_true.1 h C hC
  simp only [Bool.and_eq_true, Bool.not_eq_true', List.all_eq_true] at this
  refine ⟨?_, fun l hl => plainB_iff (this.2 l hl)⟩
  rintro rfl
  simp at this

def pp (p : String) (t : Term) : Gkc.Lit := ⟨false, .app (.sym p) [t]⟩
def nn (p : String) (t : Term) : Gkc.Lit := ⟨true, .app (.sym p) [t]⟩
def a : Term := .const (.sym "a")
def b : Term := .const (.sym "b")
def f (t : Term) : Term := .app (.sym "f") [t]

/-- `p(a)`, `p(X) => q(X)`, `-q(b)` and `q(X) => p(X)`, `p(f(X)) | q(f(X))` -/
def consistent : List (List Gkc.Lit) :=
  [[pp "p" a], [nn "p" (.var 0), pp "q" (.var 0)], [nn "q" b], [nn "q" (.var 0), pp "p" (.var 0)], [pp "p" (f (.var 0)), pp "q" (f (.var 0))]]

/-- the hypotheses are met: the search ends without a proof -/
example : PlainProblem consistent ∧ ∃ s, Loop.run (opts 100) 20 (Loop.start (opts 100) consistent) = .finished s ∧ s.lost = false :=
  ⟨plain_of (by decide +kernel), isFinished_iff (by decide +kernel)⟩

/-- and so the clauses can all be true -/
example : Satisfiable consistent := by
  obtain ⟨s, h, hl⟩ := isFinished_iff (r := Loop.run (opts 100) 20 (Loop.start (opts 100) consistent)) (b := false) (by decide +kernel)
  exact C61_finished_means_satisfiable (opts_fit (by omega)) (plain_of (by decide +kernel)) h hl

/-- four clauses that need factoring or merging: `p(X) | p(Y)`, `-p(X) | -p(Y)` -/
def factoring : List (List Gkc.Lit) := [[pp "p" (.var 0), pp "p" (.var 1)], [nn "p" (.var 0), nn "p" (.var 1)]]

/-- the hypotheses of the second theorem are met -/
example : PlainProblem factoring ∧ ∃ s, Loop.run (opts 100) 20 (Loop.start (opts 100) factoring) = .next s ∧ s.st.refuted = true :=
  ⟨plain_of (by decide +kernel), isProof_iff (by decide +kernel)⟩

/-- the formulas of C41: the search ends with a proof; without the second axiom it ends without one -/
example : PlainProblem exLss ∧ (∃ s, Loop.run (opts 100) 20 (Loop.start (opts 100) exLss) = .next s ∧ s.st.refuted = true) ∧
    ∃ s, Loop.run (opts 100) 20 (Loop.start (opts 100) (exLss.eraseIdx 1)) = .finished s ∧ s.lost = false :=
  ⟨plain_of (by decide +kernel), isProof_iff (by decide +kernel), isFinished_iff (by decide +kernel)⟩

/-- the conjecture of C41 follows, by running the search -/
example : Follows exVar (fun M => ∃ a b : M.D, a ≠ b) exItems := by
  obtain ⟨s, h, hr⟩ := isProof_iff (r := Loop.run (opts 100) 20 (Loop.start (opts 100) exLss)) (by decide +kernel)
  exact (C61_search_settles_conjecture exSRole exFresh (by simp [exSRole]) (by simp [exSRole]) (by simp [exSRole]) exAdm exAll exAllBuilt
    (plain_of (by decide +kernel)) (opts_fit (by omega))).2 h hr

/-- `p(a)`, `p(X) => p(f(X))`, `-p(f(f(f(a))))` -/
def chain : List (List Gkc.Lit) := [[pp "p" a], [nn "p" (.var 0), pp "p" (f (.var 0))], [nn "p" (f (f (f a)))]]

end Cp

/-- C61 needs the condition that no clause was thrown away.  With a limit on the size of derived clauses the search
for a contradiction ends with the queue empty as if there were none, and wr_genloop returns the same number. -/
theorem C61_size_limit_hides_proof : ∃ (o o' : Opt) (input : List (List Gkc.Lit)) (k : Nat) (s s' : LState), Fitting (Mentioned input) o ∧ Fitting (Mentioned input) o' ∧
    PlainProblem input ∧ Loop.run o k (Loop.start o input) = .finished s ∧ ¬ Satisfiable input ∧
    Loop.run o' k (Loop.start o' input) = .next s' ∧ s'.st.refuted = true := by
  obtain ⟨s, h, _⟩ := Cp.isFinished_iff (r := Loop.run (Cp.opts 2) 20 (Loop.start (Cp.opts 2) Cp.chain)) (b := true) (by decide +kernel)
  obtain ⟨s', h', hr⟩ := Cp.isProof_iff (r := Loop.run (Cp.opts 100) 20 (Loop.start (Cp.opts 100) Cp.chain)) (by decide +kernel)
  have hpl : PlainProblem Cp.chain := Cp.plain_of (by decide +kernel)
  refine ⟨Cp.opts 2, Cp.opts 100, Cp.chain, 20, s, s', Cp.opts_fit (by omega), Cp.opts_fit (by omega), hpl, h, ?_, h', hr⟩
  rintro ⟨M, hM, all⟩
  obtain ⟨a, _⟩ := hM.two
  haveI : Nonempty M.D := ⟨a⟩
  obtain ⟨C, hC, hn⟩ := C61_proof_means_unsatisfiable (Cp.opts_fit (S := fun _ => True) (lim := 100) (by omega)).sort hpl h' hr M
  exact hn (all C hC)

/-! ### C62 -/

/-- Every clause of the queue is picked sometime, unless a proof is found before. -/
def FairRun (o : Nat → Opt) (input : List (List Gkc.Lit)) : Prop :=
  ∀ t s, rounds o input t = .next s → ∀ c ∈ s.st.passive, ∃ t' s', t ≤ t' ∧ rounds o input t' = .next s' ∧
    (s'.st.refuted = true ∨ s'.st.passive[(o t').pick s'.st.passive % s'.st.passive.length]? = some c)

/-- No round fails for want of memory, and none throws away a clause. -/
structure Lossless (o : Nat → Opt) (input : List (List Gkc.Lit)) : Prop where
  stuck : ∀ t, rounds o input t ≠ .stuck
  kept : ∀ t s, rounds o input t = .next s → s.lost = false

theorem satisfiable_of_terms {input : List (List Gkc.Lit)} (hin : PlainProblem input) {I : Term → Prop}
    (hI : ∀ C ∈ input, ∀ σ : Nat → Term, ∃ l ∈ C.map (Lit.subst σ), Complete.tv I l) : Satisfiable input := by
  refine ⟨Complete.model I, model_regular I, fun C hC ρ => ?_⟩
  obtain ⟨l', hl', ht⟩ := hI C hC ρ
  obtain ⟨l, hl, rfl⟩ := List.mem_map.1 hl'
  refine ⟨l, hl, ?_⟩
  have hm := model_atom ((hin C hC).2 l hl) I ρ
  have ht : if l.neg = true then ¬ I (Term.subst ρ l.atom) else I (Term.subst ρ l.atom) := ht
  cases hn : l.neg with
  | true => rw [hn] at ht; exact fun hc => ht (hm.1 hc)
  | false => rw [hn] at ht; exact hm.2 ht

theorem iter_finished {o : Opt} {s s' : LState} (h : iter o s = .finished s') : s' = s ∧ s.st.passive = [] := by
  unfold iter at h
  split at h
  · rename_i hn
    cases h
    refine ⟨rfl, ?_⟩
    rw [List.getElem?_eq_none_iff] at hn
    apply Classical.byContradiction
    intro hne
    have hpos : 0 < s.st.passive.length := List.length_pos_iff.2 hne
    have := Nat.mod_lt (o.pick s.st.passive) hpos
    omega
  · simp only at h
    split at h
    · cases h
    · have hu : ∀ {s : LState} {c chg}, useGiven o s c chg ≠ .finished s' := by
        intro s c chg h
        unfold useGiven at h
        split at h
        · cases h
        · split at h
          · cases h
          · cases h
          · split at h
            · cases h
            · cases h
            · cases h
            · split at h
              · cases h
              · cases h
              · cases h
              · simp only at h
                split at h <;> cases h
      split at h
      · cases h
      · cases h
      · cases h
      · cases h
      · exact absurd h hu
      · exact absurd h hu

/-- the invariant along a run -/
theorem rounds_inv {o : Nat → Opt} {input : List (List Gkc.Lit)} (ho : ∀ t, Fitting (Mentioned input) (o t)) (hsel : ∀ t, (o t).sel = (o 0).sel) (hin : PlainProblem input) (hn : Lossless o input)
    (href : ∀ t s, rounds o input t = .next s → s.st.refuted = false) : ∀ t s, rounds o input t = .next s → Inv (Mentioned input) (o 0).sel input s.st ∧ s.Good := by
  have hin' := hin.okl
  intro t
  induction t with
  | zero =>
    intro s h
    simp only [rounds] at h
    cases h
    exact start_inv hin'
  | succ t ih =>
    intro s h
    have hg : s.Good := ⟨hn.kept _ s h, href _ s h⟩
    simp only [rounds] at h
    split at h
    · rename_i s0 h0
      obtain ⟨i0, g0⟩ := ih s0 h0
      rw [if_neg (by simp [g0.2])] at h
      have := (iter_spec (ho t).ok h hg).2 input
      rw [hsel t] at this
      exact ⟨this i0, hg⟩
    · rename_i hne
      exact absurd h (hne s)

/-- C62: if the clauses cannot all be true, a fair search that never fails and throws nothing away finds a proof. -/
theorem C62_fair_search_finds_proof {o : Nat → Opt} {input : List (List Gkc.Lit)} (ho : ∀ t, Fitting (Mentioned input) (o t)) (hsel : ∀ t, (o t).sel = (o 0).sel) (hin : PlainProblem input)
    (hu : ¬ Satisfiable input) (hn : Lossless o input) (hf : FairRun o input) :
    ∃ t s, rounds o input t = .next s ∧ s.st.refuted = true := by
  by_contra hcon
  have href : ∀ t s, rounds o input t = .next s → s.st.refuted = false := by
    intro t s h
    cases hr : s.st.refuted with
    | false => rfl
    | true => exact absurd ⟨t, s, h, hr⟩ hcon
  have hin' := hin.okl
  have hinv := rounds_inv ho hsel hin hn href
  have hall : ∀ t, ∃ s, rounds o input t = .next s := by
    intro t
    induction t with
    | zero => exact ⟨_, rfl⟩
    | succ t ih =>
      obtain ⟨s, h⟩ := ih
      have e : rounds o input (t + 1) = iter (o t) s := by
        simp only [rounds, h]
        rw [if_neg (by simp [href t s h])]
      cases hi : iter (o t) s with
      | stuck => exact absurd (e.trans hi) (hn.stuck _)
      | next s' => exact ⟨s', e.trans hi⟩
      | finished s' =>
        exfalso
        obtain ⟨rfl, hp⟩ := iter_finished hi
        obtain ⟨i, g⟩ := hinv t s' h
        obtain ⟨hs, hne, hk⟩ := i.saturated hp
        obtain ⟨I, hI⟩ := Complete.saturated_model (ho 0).ok.choice hk hs hne
        refine hu (satisfiable_of_terms hin (I := I) fun C hC σ => ?_)
        rcases i.inp C hC σ with ht | ⟨D, hD, _, τ, hτ⟩
        · exact Complete.tv_taut ht
        · obtain ⟨l, hl, ht⟩ := hI D hD τ
          obtain ⟨k, hk, rfl⟩ := List.mem_map.1 hl
          exact ⟨_, hτ k hk, ht⟩
  choose s hs using hall
  have hE : Endless o input s := by
    refine ⟨?_, fun t => ?_, fun t => (hinv t (s t) (hs t)).2⟩
    · have := hs 0
      simp only [rounds, Res.next.injEq] at this
      exact this.symm
    · have h1 := hs (t + 1)
      simp only [rounds, hs t] at h1
      rwa [if_neg (by simp [href t _ (hs t)])] at h1
  have hF : Loop.Fair o s := by
    intro t c hc
    obtain ⟨t', s', ht, h', hor⟩ := hf t (s t) (hs t) c hc
    have : s' = s t' := by
      have := h'.symm.trans (hs t')
      cases this
      rfl
    subst this
    rcases hor with hr | hp
    · rw [href t' _ h'] at hr; cases hr
    · exact ⟨t', ht, hp⟩
  obtain ⟨I, hI⟩ := hE.terms (fun t => (ho t).ok) hsel hin' hF
  exact hu (satisfiable_of_terms hin hI)

/-- C62: it is enough that the oldest clause is picked again and again, whatever is picked in between. -/
theorem C62_oldest_again_and_again {o : Nat → Opt} {input : List (List Gkc.Lit)} (ho : ∀ t, Fitting (Mentioned input) (o t)) (hsel : ∀ t, (o t).sel = (o 0).sel) (hin : PlainProblem input)
    (hu : ¬ Satisfiable input) (hn : Lossless o input) (hp : ∀ t, ∃ t', t ≤ t' ∧ ∀ q, (o t').pick q = 0) :
    ∃ t s, rounds o input t = .next s ∧ s.st.refuted = true := by
  by_contra hcon
  have href : ∀ t s, rounds o input t = .next s → s.st.refuted = false := by
    intro t s h
    cases hr : s.st.refuted with
    | false => rfl
    | true => exact absurd ⟨t, s, h, hr⟩ hcon
  have hinv := rounds_inv ho hsel hin hn href
  -- either the run goes on for ever, and then it is fair, or it ends, and then nothing is left in the queue
  by_cases hall : ∀ t, ∃ s, rounds o input t = .next s
  · choose s hs using hall
    have hE : Endless o input s := by
      refine ⟨?_, fun t => ?_, fun t => (hinv t (s t) (hs t)).2⟩
      · have := hs 0
        simp only [rounds, Res.next.injEq] at this
        exact this.symm
      · have h1 := hs (t + 1)
        simp only [rounds, hs t] at h1
        rwa [if_neg (by simp [href t _ (hs t)])] at h1
    have hF := hE.fair (fun t => (ho t).ok) hp
    refine hcon (C62_fair_search_finds_proof ho hsel hin hu hn ?_)
    intro t s' h' c hc
    have : s' = s t := by
      have := h'.symm.trans (hs t)
      cases this
      rfl
    subst this
    obtain ⟨t', ht, e⟩ := hF t c hc
    exact ⟨t', s t', ht, hs t', .inr e⟩
  · have : ∃ t s, rounds o input t = .next s ∧ ∀ s', rounds o input (t + 1) ≠ .next s' := by
      by_contra hno
      refine hall fun t => ?_
      induction t with
      | zero => exact ⟨_, rfl⟩
      | succ t ih =>
        obtain ⟨s, h⟩ := ih
        by_contra hx
        exact hno ⟨t, s, h, fun s' e => hx ⟨s', e⟩⟩
    obtain ⟨t, s, h, hend⟩ := this
    have e : rounds o input (t + 1) = iter (o t) s := by
      simp only [rounds, h]
      rw [if_neg (by simp [href t s h])]
    cases hi : iter (o t) s with
    | stuck => exact absurd (e.trans hi) (hn.stuck _)
    | next s' => exact hend s' (e.trans hi)
    | finished s' =>
      obtain ⟨rfl, hpas⟩ := iter_finished hi
      obtain ⟨i, g⟩ := hinv t s' h
      obtain ⟨hs, hne, hk⟩ := i.saturated hpas
      obtain ⟨I, hI⟩ := Complete.saturated_model (ho 0).ok.choice hk hs hne
      refine hu (satisfiable_of_terms hin (I := I) fun C hC σ => ?_)
      rcases i.inp C hC σ with ht | ⟨D, hD, _, τ, hτ⟩
      · exact Complete.tv_taut ht
      · obtain ⟨l, hl, ht⟩ := hI D hD τ
        obtain ⟨k, hk, rfl⟩ := List.mem_map.1 hl
        exact ⟨_, hτ k hk, ht⟩

namespace Cp

/-- rounds in which the oldest and the newest clause are picked in turn -/
def turns (t : Nat) : Opt := { opts 100 with pick := fun q => if t % 2 = 0 then 0 else q.length - 1 }

theorem turns_fit {S : Const → Prop} (t : Nat) : Fitting S (turns t) := by
  have := opts_fit (S := S) (lim := 100) (by omega)
  exact ⟨this.hash, this.sort, this.keep, this.sel⟩

def fine (r : Loop.Res) : Bool := match r with
  | .next s => !s.lost
  | _ => false

theorem chain_unsat : ¬ Satisfiable chain := by
  obtain ⟨s', h', hr⟩ := isProof_iff (r := Loop.run (opts 100) 20 (Loop.start (opts 100) chain)) (by decide +kernel)
  rintro ⟨M, hM, all⟩
  obtain ⟨a, _⟩ := hM.two
  have : Nonempty M.D := ⟨a⟩
  obtain ⟨C, hC, hn⟩ := C61_proof_means_unsatisfiable (opts_fit (S := fun _ => True) (lim := 100) (by omega)).sort (plain_of (by decide +kernel)) h' hr M
  exact hn (all C hC)

theorem turns_stay {t : Nat} (h : 12 ≤ t) : rounds turns chain t = rounds turns chain 12 := by
  induction t with
  | zero => omega
  | succ t ih =>
    by_cases e : t + 1 = 12
    · rw [e]
    · have ih := ih (by omega)
      obtain ⟨s, hs, hr⟩ := isProof_iff (r := rounds turns chain 12) (by decide +kernel)
      have step : rounds turns chain (t + 1) = match rounds turns chain t with
          | .next s => if s.st.refuted then .next s else iter (turns t) s
          | r => r := rfl
      rw [step, ih, hs]
      exact if_pos hr

/-- the hypotheses are met: nothing is lost, and the oldest clause is picked in every other round -/
example : (∀ t, Fitting (Mentioned chain) (turns t)) ∧ (∀ t, (turns t).sel = (turns 0).sel) ∧ PlainProblem chain ∧ ¬ Satisfiable chain ∧ Lossless turns chain ∧ ∀ t, ∃ t', t ≤ t' ∧ ∀ q, (turns t').pick q = 0 := by
  have key : ∀ t, fine (rounds turns chain t) = true := by
    intro t
    by_cases h : 12 ≤ t
    · rw [turns_stay h]; decide +kernel
    · have : ∀ t < 12, fine (rounds turns chain t) = true := by decide +kernel
      exact this t (by omega)
  refine ⟨turns_fit, fun _ => rfl, plain_of (by decide +kernel), chain_unsat, ⟨fun t e => ?_, fun t s e => ?_⟩, fun t => ⟨2 * t, by omega, fun q => ?_⟩⟩
  · have := key t
    rw [e] at this
    cases this
  · have := key t
    rw [e] at this
    simpa [fine] using this
  · simp [turns]

/-- and the run is fair: a proof is found by the twelfth round -/
example : FairRun turns chain := by
  intro t s _ c _
  obtain ⟨s', h', hr⟩ := isProof_iff (r := rounds turns chain 12) (by decide +kernel)
  exact ⟨max t 12, s', by omega, (turns_stay (by omega)).trans h', .inl hr⟩

end Cp

end Gkc.Props
