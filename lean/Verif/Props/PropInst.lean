import Verif.PropInstLemmas
/-
C46: propositional instances of clauses.
-/
namespace Gkc.Props
open Gkc.PropInst Term

/-- **C46.** When wr_cl_create_propinst reports a contradiction for the last of the clauses handed to
it, no interpretation makes all of them true.  Each clause may come with another constant, and the
hash function is arbitrary. -/
theorem C46_contradiction_sound (h : Const → BitVec 64) (cs : List (Const × List Lit))
    (hf : feed h cs PSt.init = .contra) : ¬ ∃ I : Interp, ∀ c ∈ cs, ClTrue I c.2 := by
  rintro ⟨I, hI⟩
  exact feed_contra_false hf hI

/-- **C46.** If the clauses of the file written for the solver are unsatisfiable, so are the clauses
of the prover. -/
theorem C46_file_sound (h : Const → BitVec 64) (cs : List (Const × List Lit)) (s : PSt)
    (hf : feed h cs PSt.init = .ok s) (hu : ¬ Satisfiable (file s).2.2) : ¬ ∃ I : Interp, ∀ c ∈ cs, ClTrue I c.2 := by
  rintro ⟨I, hI⟩
  exact hu (feed_file_sat hf hI)

/-- p(X) or q(a);  ~p(a);  ~q(Y), with the constant 1: the second and third make no contradiction with
the instance p(1) or q(a), which is in the file -/
example : (match feed Index.baseHash [(.int 1, [⟨false, .app (.sym "p") [.var 0]⟩, ⟨false, .app (.sym "q") [.const (.sym "a")]⟩]),
    (.int 1, [⟨true, .app (.sym "p") [.const (.sym "a")]⟩]), (.int 1, [⟨true, .app (.sym "q") [.var 1]⟩])] PSt.init with
    | .ok s => some (file s) | _ => none) = some (6, 3, [[2, 3], [-4], [-5]]) := by decide +kernel

/-- p(X) or q(a);  ~q(a);  ~p(Y): not noticed here, the file is unsatisfiable -/
example : (match feed Index.baseHash [(.int 1, [⟨false, .app (.sym "p") [.var 0]⟩, ⟨false, .app (.sym "q") [.const (.sym "a")]⟩]),
    (.int 1, [⟨true, .app (.sym "q") [.const (.sym "a")]⟩]), (.int 1, [⟨true, .app (.sym "p") [.var 1]⟩])] PSt.init with
    | .ok s => some (file s) | _ => none) = some (4, 3, [[2, 3], [-3], [-2]]) := by decide +kernel

/-- p(X);  ~p(Y): a contradiction -/
example : (match feed Index.baseHash [(.int 1, [⟨false, .app (.sym "p") [.var 0]⟩]), (.int 1, [⟨true, .app (.sym "p") [.var 1]⟩])]
    PSt.init with | .contra => true | _ => false) = true := by decide +kernel

/-- **C46.** The file is in DIMACS form: the second number of the first line counts the clauses, the
first is larger than all variables, no clause is empty, has a literal twice or has complementary
literals. -/
theorem C46_file_format (h : Const → BitVec 64) (cs : List (Const × List Lit)) (s : PSt)
    (hf : feed h cs PSt.init = .ok s) : (file s).2.1 = (file s).2.2.length ∧
      ∀ c ∈ (file s).2.2, c ≠ [] ∧ (∀ x ∈ c, x ≠ 0 ∧ x.natAbs < (file s).1) ∧ c.Pairwise (fun x y => x ≠ y ∧ x ≠ -y) := by
  obtain ⟨hi, _, _⟩ := feed_spec (Inv.init h) hf
  refine ⟨rfl, fun c hc => ⟨(hi.fresh c hc).1, fun x hx => ?_, (hi.fresh c hc).2⟩⟩
  have := hi.lits c hc x hx
  exact ⟨by omega, this.2⟩

/-- **C46.** For clauses without variables nothing is lost: if no contradiction is reported and the
file is satisfiable, some interpretation makes all of them true. -/
theorem C46_ground_exact (h : Const → BitVec 64) (cs : List (Const × List Lit)) (s : PSt)
    (hg : ∀ c ∈ cs, ∀ l ∈ c.2, l.atom.vars = []) (hf : feed h cs PSt.init = .ok s) :
    Satisfiable (file s).2.2 ↔ ∃ I : Interp, ∀ c ∈ cs, ClTrue I c.2 := by
  constructor
  · intro hs
    obtain ⟨I, hI⟩ := feed_exact (slotOk_ground hg) hf hs
    refine ⟨I, fun c hc ρ => ?_⟩
    obtain ⟨l, hl, ht⟩ := hI c hc
    refine ⟨l, hl, ?_⟩
    have e : eval I ρ l.atom = eval I (fun _ => I.cst c.1) l.atom := by
      rw [← eval_ground I ρ c.1 l.atom, ground_of_ground (hg c hc l hl)]
    unfold Lit.tr
    rw [e]; exact ht
  · intro hI
    exact Classical.byContradiction fun k => C46_file_sound h cs s hf k hI

example : ∀ c ∈ [((.int 1 : Const), [(⟨false, .app (.sym "p") [.const (.sym "a")]⟩ : Lit), ⟨true, .const (.sym "q")⟩])],
    ∀ l ∈ c.2, l.atom.vars = [] := by decide +kernel

/-- **C46, partial.** For clauses with variables the file is satisfiable exactly when the instances
with the constant are, provided that all clauses come with the same constant and it does not occur in
them.  Missing: the constant GKC takes is the one that occurs most often, and for it the statement is
false (`C46_instance_lost`). -/
theorem C46_instances_exact_partial (h : Const → BitVec 64) (g : Const) (cs : List (Const × List Lit)) (s : PSt)
    (hg : ∀ c ∈ cs, c.1 = g ∧ ∀ l ∈ c.2, occ g l.atom = false) (hf : feed h cs PSt.init = .ok s) :
    Satisfiable (file s).2.2 ↔ ∃ I : Interp, ∀ c ∈ cs, InstTrue I c := by
  constructor
  · exact feed_exact (slotOk_new hg) hf
  · rintro ⟨I, hI⟩
    have := feed_sound (h := h) (I := I) (cs := cs) (Inv.init h) (by simp [PSt.init]) hI
    rw [hf] at this
    exact ⟨_, this⟩

example : ∀ c ∈ [((.int 1 : Const), [(⟨false, .app (.sym "p") [.var 0]⟩ : Lit), ⟨true, .app (.sym "q") [.const (.sym "a"), .var 1]⟩])],
    c.1 = .int 1 ∧ ∀ l ∈ c.2, occ (.int 1) l.atom = false := by decide +kernel

/-- p(X) and ~p(a) with the constant a -/
def lostInput : List (Const × List Lit) :=
  [(.sym "a", [⟨false, .app (.sym "p") [.var 0]⟩]), (.sym "a", [⟨true, .app (.sym "p") [.const (.sym "a")]⟩])]

/-- **C46, negation of the full statement.** p(X) and ~p(a) with the constant a: the instances
contradict each other, but wr_term_basehash gives the variable another value than the constant, the
atoms get different numbers, and the file is satisfiable. -/
theorem C46_instance_lost : ∃ s, feed Index.baseHash lostInput PSt.init = .ok s ∧ Satisfiable (file s).2.2 ∧
    ¬ ∃ I : Interp, ∀ c ∈ lostInput, InstTrue I c := by
  have hc : (match feed Index.baseHash lostInput PSt.init with | .ok s => some s.cls | _ => none) = some [[2], [-3]] := by
    decide +kernel
  cases hf : feed Index.baseHash lostInput PSt.init with
  | ub => rw [hf] at hc; cases hc
  | contra => rw [hf] at hc; cases hc
  | ok s =>
    rw [hf] at hc
    simp only [Option.some.injEq] at hc
    refine ⟨s, rfl, ⟨fun p => p = 2, ?_⟩, ?_⟩
    · intro c hm
      have hm : c ∈ s.cls := hm
      rw [hc] at hm
      rcases List.mem_cons.1 hm with rfl | hm
      · exact ⟨2, by simp, .inl ⟨by omega, rfl⟩⟩
      · rw [List.mem_singleton.1 hm]
        exact ⟨-3, by simp, .inr ⟨by omega, by decide⟩⟩
    · rintro ⟨I, hI⟩
      obtain ⟨l1, hl1, h1⟩ := hI (.sym "a", [⟨false, .app (.sym "p") [.var 0]⟩]) (by simp [lostInput])
      obtain ⟨l2, hl2, h2⟩ := hI (.sym "a", [⟨true, .app (.sym "p") [.const (.sym "a")]⟩]) (by simp [lostInput])
      have e1 := List.mem_singleton.1 hl1
      have e2 := List.mem_singleton.1 hl2
      subst e1 e2
      simp [eval, evalL] at h1 h2
      exact h2 h1

/-- **C46.** The bucket of every atom is inside the table, whose positions are 1 to 1000000. -/
theorem C46_bucket_in_table (h : Const → BitVec 64) (g : Const) (x : Term) : 1 ≤ atomSlot h g x ∧ atomSlot h g x < 1000000 := by
  unfold atomSlot
  generalize ((Vec.termHash (propBase h g) x).truncate 32).toInt = k
  have key : ∀ k : Int, 0 ≤ k → 1 ≤ ((if k + 1 ≥ 1000000 then k.tmod 999999 else k) + 1).toNat ∧
      ((if k + 1 ≥ 1000000 then k.tmod 999999 else k) + 1).toNat < 1000000 := by
    intro k hk
    have h1 := Int.tmod_lt_of_pos k (show (0 : Int) < 999999 by omega)
    have h2 := Int.tmod_nonneg 999999 hk
    split <;> omega
  exact key _ (by split <;> omega)

/-- **C46, partial.** With at most 999999 literals in all the clauses handed over, no read through a
stale address happens. -/
theorem C46_no_stale_read_partial (h : Const → BitVec 64) (cs : List (Const × List Lit))
    (hn : (cs.map (fun c => c.2.length)).sum ≤ 999999) : feed h cs PSt.init ≠ .ub :=
  feed_not_ub (by show 2 + _ ≤ 1000000 + 1; omega)

example : (([((.int 1 : Const), [(⟨false, .app (.sym "p") [.var 0]⟩ : Lit)])] : List (Const × List Lit)).map
    (fun c => c.2.length)).sum ≤ 999999 := by decide +kernel

/-- **C46, negation of the full statement.** With a million different unit clauses wr_cl_create_propinst
reads the value of the last one through the address `prop_varvals` had before it was moved. -/
theorem C46_stale_read (h : Const → BitVec 64) : feed h (manyUnits 1000000) PSt.init = .ub :=
  feed_manyUnits_ub (n := 999999) rfl

/-- **C46, partial.** If no other process uses the files in between and the solver is right, a proof
reported after the solver's run is one: the clauses handed over are unsatisfiable. -/
theorem C46_solver_sound_partial (solver : List (List Int) → Bool) (hs : ∀ c, solver c = true → ¬ Satisfiable c)
    (h : Const → BitVec 64) (cs : List (Const × List Lit)) (s : PSt) (hf : feed h cs PSt.init = .ok s)
    (f : Files × (Nat → Bool)) (i : Nat)
    (hv : (runOps solver [(i, .write (file s).2.2), (i, .solve), (i, .read)] f).2 i = true) :
    ¬ ∃ I : Interp, ∀ c ∈ cs, ClTrue I c.2 := by
  apply C46_file_sound h cs s hf
  apply hs
  simpa [runOps, Op.run] using hv

/-- **C46, negation of the full statement.** Two processes run at the same time: whatever the first
one writes, if the second writes an unsatisfiable file before the first runs the solver, the first
reports a proof. -/
theorem C46_shared_files (solver : List (List Int) → Bool) (mine other : List (List Int)) (ho : solver other = true)
    (f : Files × (Nat → Bool)) :
    (runOps solver [(0, .write mine), (1, .write other), (0, .solve), (0, .read)] f).2 0 = true := by
  simp [runOps, Op.run, ho]

example : ∃ solver : List (List Int) → Bool, (∀ c, solver c = true → ¬ Satisfiable c) ∧ solver [[2], [-2]] = true := by
  refine ⟨fun c => c == [[2], [-2]], ?_, by decide +kernel⟩
  intro c hc
  have : c = [[2], [-2]] := by simpa using hc
  subst this
  rintro ⟨v, hv⟩
  obtain ⟨x, hx, h1⟩ := hv [2] (by simp)
  obtain ⟨y, hy, h2⟩ := hv [-2] (by simp)
  have e1 := List.mem_singleton.1 hx
  have e2 := List.mem_singleton.1 hy
  subst e1 e2
  rcases h1 with h1 | h1
  · rcases h2 with h2 | h2
    · omega
    · exact h2.2 h1.2
  · omega

end Gkc.Props
