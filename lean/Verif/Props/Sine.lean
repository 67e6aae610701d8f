import Verif.SineLemmas
import Verif.Props.Strategy
/-
C64: the filter on input clauses keeps the clauses connected with the goal.
-/
namespace Gkc.Props
open Gkc

/-! ### What the filter is meant to do -/
namespace Sn

/-- the symbol occurs in the clause; numbers do not count as symbols -/
def has (c : Const) (C : Sine.Cl) : Bool := c.isLongstr && C.lits.any fun l => decide (c ∈ names l.atom)

/-- number of clauses in which the symbol occurs -/
def count (cls : List Sine.Cl) (c : Const) : Nat := cls.countP (has c)

/-- twice the factor by which the symbol may be more frequent than the others of the clause -/
def twiceTolerance : Nat → Nat → Nat
  | 3, _ => 8
  | 4, _ => 4
  | 5, _ => 2
  | _, n => if n ≥ 100000 then 3 else 8

/-- a symbol in at most so many clauses triggers all of them -/
def rareUpTo : Nat → Nat → Nat
  | 3, _ => 2
  | 4, _ => 1
  | 5, _ => 1
  | _, n => if n ≥ 10000 then 1 else if n ≥ 1000 then 2 else if n ≥ 100 then 3 else 4

/-- The symbol, occurring in the clause, triggers it. -/
def Triggers (cfg : Sine.Cfg) (cls : List Sine.Cl) (c : Const) (C : Sine.Cl) : Prop :=
  count cls c ≤ rareUpTo cfg.strat cls.length ∨ ∀ d, has d C = true → 2 * count cls c ≤ twiceTolerance cfg.strat cls.length * count cls d

/-- a number brought into the range from 10 to 10000 -/
def between (x : Nat) : Nat := max 10 (min 10000 x)

/-- so many clauses can be triggered -/
def triggerLimit : Nat → Nat → Nat
  | 1, _ => 1000000
  | 4, n => between (n / 15)
  | 5, n => if n ≥ 200020 then 1000 else between (n / 20)
  | _, n => between (n / 10)

/-- the largest number of clauses with the same symbol -/
def mostFrequent (cfg : Sine.Cfg) (cls : List Sine.Cl) : Nat := (cfg.uris.map (count cls)).foldr max 0

/-- symbols in so many clauses are common -/
def commonFrom (cfg : Sine.Cfg) (cls : List Sine.Cl) : Nat := if cfg.strat = 1 ∧ mostFrequent cfg cls < 50 then mostFrequent cfg cls * 7 / 10 else 10

/-- so many clauses are kept for having only common symbols -/
def commonLimit (cfg : Sine.Cfg) : Nat := if cfg.strat = 1 then 1000000 else between (cfg.uris.length / 10)

/-- all symbols of the clause are common -/
def onlyCommon (cfg : Sine.Cfg) (cls : List Sine.Cl) (C : Sine.Cl) : Bool :=
  C.lits.all fun l => (names l.atom).all fun d => !d.isLongstr || decide (count cls d ≥ commonFrom cfg cls)

/-- the first clauses, apart from goals, with only common symbols -/
def commonClauses (cfg : Sine.Cfg) (cls : List Sine.Cl) : List Sine.Cl :=
  if commonFrom cfg cls = 0 then [] else (cls.filter fun C => !C.goal && onlyCommon cfg cls C).take (commonLimit cfg)

/-- the symbol is `k - 1` steps from the goals -/
def Distance (cfg : Sine.Cfg) (cls : List Sine.Cl) : Nat → Const → Prop := Sine.Near cls (fun c C => has c C = true) (Triggers cfg cls)

/-- the clause is a goal, or is triggered by a symbol at a distance up to 120, or has only common symbols -/
def Relevant (cfg : Sine.Cfg) (cls : List Sine.Cl) (C : Sine.Cl) : Prop :=
  C.goal = true ∨ (∃ k c, k ≤ 120 ∧ Distance cfg cls k c ∧ has c C = true ∧ Triggers cfg cls c C) ∨ C ∈ commonClauses cfg cls

/-- Clauses and symbols have different numbers, inside the tables (of 10000000 entries, Reasoner/glb.h:135). -/
structure Numbered (cfg : Sine.Cfg) (cls : List Sine.Cl) : Prop where
  cl : ∀ C ∈ cls, C.id < cfg.nb
  clNe : ∀ C ∈ cls, ∀ D ∈ cls, C.id = D.id → C = D
  sy : ∀ c, ∀ C ∈ cls, has c C = true → cfg.uid c < cfg.ub
  syNe : ∀ c d, ∀ C ∈ cls, ∀ D ∈ cls, has c C = true → has d D = true → cfg.uid c = cfg.uid d → c = d

/-- the literals of the clauses -/
def lits (cls : List Sine.Cl) : List (List Gkc.Lit) := cls.map (·.lits)

/-! ### The model and the specification -/

theorem has_iff {c : Const} {C : Sine.Cl} : has c C = true ↔ c ∈ Sine.clSyms C [] := by
  simp [has, Sine.mem_clSyms, mem_names]

theorem count_eq (cls : List Sine.Cl) (c : Const) : count cls c = Sine.scount cls c := by
  unfold count Sine.scount Sine.occs
  rw [List.countP_eq_length_filter]
  congr 2
  funext C
  rw [Bool.eq_iff_iff, has_iff]
  simp

theorem tol_eq (cfg : Sine.Cfg) (n : Nat) : twiceTolerance cfg.strat n = Sine.tol2 cfg n := by
  unfold twiceTolerance Sine.tol2
  split
  · rename_i e; simp [e]
  · rename_i e; simp [e]
  · rename_i e; simp [e]
  · rename_i h3 h4 h5
    rw [if_neg h3, if_neg h4, if_neg h5]
    split <;> split <;> omega

theorem rare_eq (cfg : Sine.Cfg) (n : Nat) : rareUpTo cfg.strat n = Sine.sineG cfg n := by
  unfold rareUpTo Sine.sineG
  split
  · rename_i e; simp [e]
  · rename_i e; simp [e]
  · rename_i e; simp [e]
  · rename_i h3 h4 h5
    rw [if_neg h3, if_neg h4, if_neg h5]
    repeat' split
    all_goals omega

theorem clip_eq (x : Nat) : Sine.clip x = between x := by
  unfold Sine.clip between
  repeat' split
  all_goals omega

theorem limit_eq (cfg : Sine.Cfg) (n : Nat) : triggerLimit cfg.strat n = Sine.maxTriggers cfg n := by
  unfold triggerLimit Sine.maxTriggers
  simp only [clip_eq]
  split
  · rename_i e; simp [e]
  · rename_i e; simp [e]
  · rename_i e
    have n1 : ¬ cfg.strat = 1 := by omega
    have n4 : ¬ cfg.strat = 4 := by omega
    rw [if_neg n1, if_neg n4, if_pos e]
    unfold between
    repeat' split
    all_goals omega
  · rename_i h3 h4 h5
    rw [if_neg h3, if_neg h4, if_neg h5]

theorem most_eq (cfg : Sine.Cfg) (cls : List Sine.Cl) : mostFrequent cfg cls = Sine.maxcount cfg cls := by
  have key : ∀ (l : List Const) (m : Nat), l.foldl (fun m c => if Sine.scount cls c > m then Sine.scount cls c else m) m = max m ((l.map (count cls)).foldr max 0) := by
    intro l
    induction l with
    | nil => intro m; simp
    | cons c l ih =>
      intro m
      simp only [List.foldl_cons, List.map_cons, List.foldr_cons, ih, count_eq]
      split <;> omega
  unfold mostFrequent Sine.maxcount
  rw [key]
  omega

theorem commonFrom_eq (cfg : Sine.Cfg) (cls : List Sine.Cl) : commonFrom cfg cls = Sine.sineCommon cfg cls := by
  unfold commonFrom Sine.sineCommon
  rw [most_eq]
  by_cases h : cfg.strat = 1 <;> simp [h]

theorem commonLimit_eq (cfg : Sine.Cfg) : commonLimit cfg = Sine.sineMaxcommon cfg := by
  unfold commonLimit Sine.sineMaxcommon
  rw [clip_eq]

theorem onlyCommon_eq (cfg : Sine.Cfg) (cls : List Sine.Cl) (C : Sine.Cl) : onlyCommon cfg cls C = Sine.common cls (Sine.sineCommon cfg cls) C := by
  rw [Bool.eq_iff_iff]
  unfold Sine.common
  rw [Sine.checkCl_iff]
  simp only [onlyCommon, List.all_eq_true, Bool.or_eq_true, Bool.not_eq_true', decide_eq_true_eq, count_eq, commonFrom_eq]
  constructor
  · intro h d hd
    rw [Sine.mem_clSyms] at hd
    obtain ⟨hu, l, hl, hm⟩ := hd.resolve_left (by simp)
    exact (h l hl d ((mem_names _ _).2 hm)).resolve_left (by simp [hu])
  · intro h l hl d hd
    cases hu : d.isLongstr with
    | false => exact .inl rfl
    | true => exact .inr (h d (Sine.mem_clSyms.2 (.inr ⟨hu, l, hl, (mem_names _ _).1 hd⟩)))

theorem common_eq (cfg : Sine.Cfg) (cls : List Sine.Cl) : commonClauses cfg cls = Sine.commons cfg cls := by
  unfold commonClauses Sine.commons
  simp only [onlyCommon_eq, commonFrom_eq, commonLimit_eq]
  split
  · rename_i h
    simp [h]
  · rename_i h
    simp [h]

theorem triggers_iff {cfg : Sine.Cfg} {cls : List Sine.Cl} {c : Const} {C : Sine.Cl} : Triggers cfg cls c C ↔ Sine.T cfg cls c C := by
  unfold Triggers Sine.T
  rw [rare_eq, tol_eq, count_eq]
  have : Sine.trig cls (Sine.tol2 cfg cls.length) (Sine.scount cls c) C = true ↔ ∀ d, has d C = true → 2 * Sine.scount cls c ≤ Sine.tol2 cfg cls.length * count cls d := by
    unfold Sine.trig
    rw [Sine.checkCl_iff]
    simp only [has_iff, count_eq, decide_eq_true_eq, not_lt, gt_iff_lt]
    constructor
    · intro h d hd
      rw [Nat.mul_comm (Sine.tol2 cfg cls.length)]
      exact h d hd
    · intro h d hd
      rw [Nat.mul_comm (Sine.scount cls d)]
      exact h d hd
  rw [← this, ← Bool.not_eq_true, not_and_or, not_lt, not_not]

theorem distance_iff {cfg : Sine.Cfg} {cls : List Sine.Cl} {k : Nat} {c : Const} : Distance cfg cls k c ↔ Sine.Nr cfg cls k c :=
  ⟨fun h => h.congr (fun _ _ _ => has_iff) fun _ _ _ => triggers_iff, fun h => h.congr (fun _ _ _ => has_iff.symm) fun _ _ _ => triggers_iff.symm⟩

theorem relevant_iff {cfg : Sine.Cfg} {cls : List Sine.Cl} {C : Sine.Cl} : Relevant cfg cls C ↔ Sine.Why cfg cls C ∨ C ∈ Sine.commons cfg cls := by
  unfold Relevant Sine.Why
  simp only [distance_iff, has_iff, triggers_iff, common_eq]
  constructor
  · rintro (h | ⟨k, c, h1, h2, h3, h4⟩ | h)
    · exact .inl (.inl h)
    · exact .inl (.inr ⟨k, c, h2, h1, h3, h4⟩)
    · exact .inr h
  · rintro ((h | ⟨k, c, h1, h2, h3, h4⟩) | h)
    · exact .inl h
    · exact .inr (.inl ⟨k, c, h2, h1, h3, h4⟩)
    · exact .inr (.inr h)

theorem Numbered.tab {cfg : Sine.Cfg} {cls : List Sine.Cl} (h : Numbered cfg cls) : Sine.Tab cfg cls where
  cl := h.cl
  inj := h.clNe
  sy := fun c ⟨C, hC, hc⟩ => h.sy c C hC (has_iff.2 hc)
  syInj := fun c d ⟨C, hC, hc⟩ ⟨D, hD, hd⟩ => h.syNe c d C hC D hD (has_iff.2 hc) (has_iff.2 hd)

theorem sine_some {cfg : Sine.Cfg} {cls kept : List Sine.Cl} {rounds : Nat} (h : Sine.sine cfg cls rounds = some kept) :
    ∃ s, Sine.loop cfg cls rounds (Sine.start cfg cls) = some s ∧ kept = Sine.used cfg cls s := by
  unfold Sine.sine at h
  obtain ⟨s, h1, h2⟩ := Option.map_eq_some_iff.1 h
  exact ⟨s, h1, h2.symm⟩

end Sn

open Sn

/-! ### The filter ends -/

/-- C64: the filter ends, whatever the clauses and the tables, and its result does not depend on how long it is waited for. -/
theorem C64_filter_ends (cfg : Sine.Cfg) (cls : List Sine.Cl) : ∃ n kept, ∀ rounds, n ≤ rounds → Sine.sine cfg cls rounds = some kept := by
  obtain ⟨L, hL⟩ : ∃ L, ∀ C ∈ cls, (Sine.clSyms C []).length ≤ L := by
    induction cls with
    | nil => exact ⟨0, by simp⟩
    | cons C Cs ih =>
      obtain ⟨L, h⟩ := ih
      refine ⟨L + (Sine.clSyms C []).length, fun D hD => ?_⟩
      rcases List.mem_cons.1 hD with rfl | hD
      · omega
      · have := h D hD; omega
  obtain ⟨s, hs⟩ := Sine.loop_some hL (cfg := cfg) (s := Sine.start cfg cls) (Nat.lt_succ_self _)
  refine ⟨(Sine.pot cfg cls.length L (Sine.start cfg cls)).succ, Sine.used cfg cls s, fun rounds hr => ?_⟩
  unfold Sine.sine
  rw [Sine.loop_more hs hr]
  rfl

/-! ### What is kept -/

/-- C64: only input clauses are used, in their order. -/
theorem C64_kept_are_input {cfg : Sine.Cfg} {cls kept : List Sine.Cl} {rounds : Nat} (h : Sine.sine cfg cls rounds = some kept) : kept.Sublist cls := by
  obtain ⟨s, _, rfl⟩ := sine_some h
  unfold Sine.used
  split
  · exact List.Sublist.refl _
  · exact List.filter_sublist

/-- C64: goals with a number inside the table are used, whatever the limits. -/
theorem C64_goals_kept {cfg : Sine.Cfg} {cls kept : List Sine.Cl} {rounds : Nat} (h : Sine.sine cfg cls rounds = some kept) {C : Sine.Cl} (hC : C ∈ cls) (hg : C.goal = true)
    (hid : C.id < cfg.nb) : C ∈ kept := by
  obtain ⟨s, hs, rfl⟩ := sine_some h
  unfold Sine.used
  split
  · exact hC
  · exact List.mem_filter.2 ⟨hC, by simpa using Sine.goal_stays hC hid hg hs⟩

/-- C64: clauses with a number outside the table are dropped, even goals, unless there is no table. -/
theorem C64_outside_dropped {cfg : Sine.Cfg} {cls kept : List Sine.Cl} {rounds : Nat} (h : Sine.sine cfg cls rounds = some kept) (hn : cfg.nb ≠ 0) {C : Sine.Cl}
    (hid : cfg.nb ≤ C.id) : C ∉ kept := by
  obtain ⟨s, hs, rfl⟩ := sine_some h
  unfold Sine.used
  rw [if_neg hn]
  intro hC
  have := (List.mem_filter.1 hC).2
  simp [Sine.getC, hid] at this

/-- C64: every clause used is a goal, or is triggered by a symbol near the goals, or has only common symbols. -/
theorem C64_kept_relevant {cfg : Sine.Cfg} {cls kept : List Sine.Cl} {rounds : Nat} (hn : Numbered cfg cls) (h : Sine.sine cfg cls rounds = some kept) {C : Sine.Cl} (hC : C ∈ kept) :
    Relevant cfg cls C := by
  have hm := (C64_kept_are_input h).subset hC
  obtain ⟨s, hs, rfl⟩ := sine_some h
  unfold Sine.used at hC
  have := hn.cl C hm
  rw [if_neg (by omega)] at hC
  exact relevant_iff.2 (Sine.kept_why hn.tab hs hm (by simpa using (List.mem_filter.1 hC).2))

/-- C64: with fewer clauses than can be triggered (always below a million with `"sine":1`) exactly the relevant clauses are used. -/
theorem C64_kept_iff {cfg : Sine.Cfg} {cls kept : List Sine.Cl} {rounds : Nat} (hn : Numbered cfg cls) (hl : cls.length < triggerLimit cfg.strat cls.length)
    (h : Sine.sine cfg cls rounds = some kept) (C : Sine.Cl) : C ∈ kept ↔ C ∈ cls ∧ Relevant cfg cls C := by
  refine ⟨fun hC => ⟨(C64_kept_are_input h).subset hC, C64_kept_relevant hn h hC⟩, fun ⟨hC, hr⟩ => ?_⟩
  obtain ⟨s, hs, rfl⟩ := sine_some h
  unfold Sine.used
  split
  · exact hC
  · refine List.mem_filter.2 ⟨hC, ?_⟩
    have ht := Sine.triggers_le hn.tab hs
    rw [limit_eq] at hl
    simpa using Sine.why_kept hn.tab hs (by omega) hC (relevant_iff.1 hr)

/-- C64: the number of clauses used, apart from goals and clauses with only common symbols, is at most the limit. -/
theorem C64_kept_few {cfg : Sine.Cfg} {cls kept : List Sine.Cl} {rounds : Nat} (hn : Numbered cfg cls) (hd : cls.Nodup) (h : Sine.sine cfg cls rounds = some kept) :
    kept.length ≤ cls.countP (·.goal) + (commonClauses cfg cls).length + triggerLimit cfg.strat cls.length := by
  rw [limit_eq, common_eq]
  obtain ⟨s, hs, rfl⟩ := sine_some h
  unfold Sine.used
  split
  · rename_i h0
    cases cls with
    | nil => simp
    | cons C Cs => have := hn.cl C (by simp); omega
  · rw [← List.countP_eq_length_filter]
    exact Sine.numbered_le hn.tab hd hs

/-- C64: in a problem without a goal only clauses with common symbols are used. -/
theorem C64_without_goals {cfg : Sine.Cfg} {cls kept : List Sine.Cl} {rounds : Nat} (hn : Numbered cfg cls) (h : Sine.sine cfg cls rounds = some kept)
    (hg : ∀ C ∈ cls, C.goal = false) {C : Sine.Cl} (hC : C ∈ kept) : C ∈ commonClauses cfg cls := by
  have none : ∀ k c, ¬ Distance cfg cls k c := fun k c hd => by
    have hd : Sine.Near cls (fun c C => has c C = true) (Triggers cfg cls) k c := hd
    induction hd with
    | goal h1 h2 _ => rw [hg _ h1] at h2; cases h2
    | step _ _ _ _ _ _ ih => exact ih ‹_›
  rcases C64_kept_relevant hn h hC with hr | ⟨k, c, _, hd, _⟩ | hr
  · rw [hg C ((C64_kept_are_input h).subset hC)] at hr; cases hr
  · exact absurd hd (none k c)
  · exact hr

/-! ### What a search among the kept clauses shows -/

theorem PlainProblem.mono {A B : List (List Gkc.Lit)} (h : PlainProblem A) (hs : ∀ C ∈ B, C ∈ A) : PlainProblem B := fun C hC => h C (hs C hC)

/-- C64: a proof from the clauses used is a proof from the input. -/
theorem C64_proof_is_right {cfg : Sine.Cfg} {cls kept : List Sine.Cl} {rounds : Nat} (h : Sine.sine cfg cls rounds = some kept) (hp : PlainProblem (lits cls))
    {o : Loop.Opt} (ho : ∀ c, (o.sort c).Perm c) {k : Nat} {s : Loop.LState} (hr : Loop.run o k (Loop.start o (lits kept)) = .next s) (hs : s.st.refuted = true)
    (M : FO) [Nonempty M.D] : ∃ C ∈ lits cls, ¬ M.holds C := by
  have hsub : ∀ C ∈ lits kept, C ∈ lits cls := fun C hC => by
    obtain ⟨D, hD, rfl⟩ := List.mem_map.1 hC
    exact List.mem_map.2 ⟨D, (C64_kept_are_input h).subset hD, rfl⟩
  obtain ⟨C, hC, hn⟩ := C61_proof_means_unsatisfiable ho (hp.mono hsub) hr hs M
  exact ⟨C, hsub C hC, hn⟩

mutual
theorem fo_eval_subst (M : FO) (ρ : Nat → M.D) (σ : Nat → Term) : ∀ t : Term, M.eval ρ (Term.subst σ t) = M.eval (fun v => M.eval ρ (σ v)) t
  | .var v => by simp [FO.eval]
  | .const c => by simp [FO.eval]
  | .app f as => by
    simp only [Term.subst, FO.eval]
    rw [fo_evalL_subst M ρ σ as]
theorem fo_evalL_subst (M : FO) (ρ : Nat → M.D) (σ : Nat → Term) : ∀ as : List Term, M.evalL ρ (Term.substL σ as) = M.evalL (fun v => M.eval ρ (σ v)) as
  | [] => rfl
  | a :: as => by
    simp only [Term.substL, FO.evalL]
    rw [fo_eval_subst M ρ σ a, fo_evalL_subst M ρ σ as]
end

/-- C64: problems without a common predicate can be treated one at a time. -/
theorem C64_no_common_predicate {R Q : List (List Gkc.Lit)} (hp : PlainProblem (R ++ Q))
    (hd : ∀ C ∈ R, ∀ D ∈ Q, ∀ l ∈ C, ∀ m ∈ D, ∀ p as bs, l.atom = .app p as → m.atom ≠ .app p bs) (h1 : Satisfiable R) (h2 : Satisfiable Q) :
    Satisfiable (R ++ Q) := by
  classical
  obtain ⟨M, hM, a1⟩ := h1
  obtain ⟨N, hN, a2⟩ := h2
  obtain ⟨m, _⟩ := hM.two
  obtain ⟨n, _⟩ := hN.two
  let inR : Const → Prop := fun p => ∃ C ∈ R, ∃ l ∈ C, ∃ as, l.atom = .app p as
  let I : Term → Prop := fun t => match t with
    | .app p as => if inR p then M.pr p (M.evalL (fun _ => m) as) else N.pr p (N.evalL (fun _ => n) as)
    | _ => False
  refine satisfiable_of_terms hp (I := I) fun C hC σ => ?_
  rcases List.mem_append.1 hC with hR | hQ
  · obtain ⟨l, hl, ht⟩ := a1 C hR fun v => M.eval (fun _ => m) (σ v)
    refine ⟨Lit.subst σ l, List.mem_map.2 ⟨l, hl, rfl⟩, ?_⟩
    obtain ⟨p, as, e, _⟩ := ((hp C hC).2 l hl).atom
    have hin : inR p := ⟨C, hR, l, hl, as, e⟩
    have hI : I (Term.subst σ l.atom) ↔ M.atom (fun v => M.eval (fun _ => m) (σ v)) l.atom := by
      rw [e]
      simp only [Term.subst, I, FO.atom, if_pos hin]
      rw [fo_evalL_subst]
    show if l.neg = true then ¬ I (Term.subst σ l.atom) else I (Term.subst σ l.atom)
    rw [hI]
    exact ht
  · obtain ⟨l, hl, ht⟩ := a2 C hQ fun v => N.eval (fun _ => n) (σ v)
    refine ⟨Lit.subst σ l, List.mem_map.2 ⟨l, hl, rfl⟩, ?_⟩
    obtain ⟨p, as, e, _⟩ := ((hp C hC).2 l hl).atom
    have hin : ¬ inR p := fun ⟨D, hD, l', hl', bs, e'⟩ => hd D hD C hQ l' hl' l hl p bs as e' e
    have hI : I (Term.subst σ l.atom) ↔ N.atom (fun v => N.eval (fun _ => n) (σ v)) l.atom := by
      rw [e]
      simp only [Term.subst, I, FO.atom, if_neg hin]
      rw [fo_evalL_subst]
    show if l.neg = true then ¬ I (Term.subst σ l.atom) else I (Term.subst σ l.atom)
    rw [hI]
    exact ht

theorem Satisfiable.mono {A B : List (List Gkc.Lit)} (h : Satisfiable A) (hs : ∀ C ∈ B, C ∈ A) : Satisfiable B := by
  obtain ⟨M, hM, h⟩ := h
  exact ⟨M, hM, fun C hC => h C (hs C hC)⟩

/-- C64: where the symbols near the goals trigger every clause in which they occur, and no symbol is farther than 120, no proof is lost: if the axioms can all be
true and the input cannot, then the clauses used cannot. -/
theorem C64_connected_lose_nothing_partial {cfg : Sine.Cfg} {cls kept : List Sine.Cl} {rounds : Nat} (hn : Numbered cfg cls) (hl : cls.length < triggerLimit cfg.strat cls.length)
    (hall : ∀ k c, Distance cfg cls k c → ∀ C ∈ cls, has c C = true → Triggers cfg cls c C)
    (hfar : ∀ c, Distance cfg cls 121 c → ∃ k ≤ 120, Distance cfg cls k c)
    (hp : PlainProblem (lits cls)) (hpr : ∀ C ∈ cls, ∀ l ∈ C.lits, ∀ p as, l.atom = .app p as → p.isLongstr = true)
    (hax : Satisfiable (lits (cls.filter fun C => !C.goal))) (h : Sine.sine cfg cls rounds = some kept) (hu : ¬ Satisfiable (lits cls)) : ¬ Satisfiable (lits kept) := by
  classical
  intro hk
  let rel : Sine.Cl → Prop := fun C => C.goal = true ∨ ∃ k c, k ≤ 120 ∧ Distance cfg cls k c ∧ has c C = true
  have hR : ∀ C ∈ lits (cls.filter fun C => decide (rel C)), C ∈ lits kept := by
    intro L hL
    obtain ⟨C, hC, rfl⟩ := List.mem_map.1 hL
    obtain ⟨hm, hr⟩ := List.mem_filter.1 hC
    refine List.mem_map.2 ⟨C, (C64_kept_iff hn hl h C).2 ⟨hm, ?_⟩, rfl⟩
    rcases (show rel C by simpa using hr) with hg | ⟨k, c, a, b, d⟩
    · exact .inl hg
    · exact .inr (.inl ⟨k, c, a, b, d, hall k c b C hm d⟩)
  have hQ : ∀ C ∈ lits (cls.filter fun C => decide (¬ rel C)), C ∈ lits (cls.filter fun C => !C.goal) := by
    intro L hL
    obtain ⟨C, hC, rfl⟩ := List.mem_map.1 hL
    obtain ⟨hm, hr⟩ := List.mem_filter.1 hC
    refine List.mem_map.2 ⟨C, List.mem_filter.2 ⟨hm, ?_⟩, rfl⟩
    have hr : ¬ rel C := by simpa using hr
    cases hg : C.goal with
    | false => rfl
    | true => exact absurd (.inl hg) hr
  have hsub : ∀ L ∈ lits (cls.filter fun C => decide (rel C)) ++ lits (cls.filter fun C => decide (¬ rel C)), L ∈ lits cls := by
    intro L hL
    rcases List.mem_append.1 hL with hL | hL <;>
    · obtain ⟨C, hC, rfl⟩ := List.mem_map.1 hL
      exact List.mem_map.2 ⟨C, (List.mem_filter.1 hC).1, rfl⟩
  refine hu (Satisfiable.mono (C64_no_common_predicate (hp.mono hsub) ?_ (hk.mono hR) (hax.mono hQ)) ?_)
  · intro L hL K hK l hl' m hm p as bs e1 e2
    obtain ⟨C, hC, rfl⟩ := List.mem_map.1 hL
    obtain ⟨D, hD, rfl⟩ := List.mem_map.1 hK
    obtain ⟨hCm, hr⟩ := List.mem_filter.1 hC
    obtain ⟨hDm, hr'⟩ := List.mem_filter.1 hD
    have hr' : ¬ rel D := by simpa using hr'
    have hu := hpr C hCm l hl' p as e1
    have hpC : has p C = true := by
      simp only [has, hu, Bool.true_and, List.any_eq_true, decide_eq_true_eq]
      exact ⟨l, hl', by rw [e1]; simp [names]⟩
    have hpD : has p D = true := by
      simp only [has, hu, Bool.true_and, List.any_eq_true, decide_eq_true_eq]
      exact ⟨m, hm, by rw [e2]; simp [names]⟩
    refine hr' (.inr ?_)
    rcases (show rel C by simpa using hr) with hg | ⟨k, c, a, b, d⟩
    · exact ⟨1, p, by omega, .goal hCm hg hpC, hpD⟩
    · have hstep : Distance cfg cls (k + 1) p := .step b a hCm d (hall k c b C hCm d) hpC
      by_cases hk' : k + 1 ≤ 120
      · exact ⟨k + 1, p, hk', hstep, hpD⟩
      · obtain rfl : k = 120 := by omega
        obtain ⟨k', h1, h2⟩ := hfar p hstep
        exact ⟨k', p, h1, h2, hpD⟩
  · intro L hL
    obtain ⟨C, hC, rfl⟩ := List.mem_map.1 hL
    by_cases hr : rel C
    · exact List.mem_append.2 (.inl (List.mem_map.2 ⟨C, List.mem_filter.2 ⟨hC, by simpa using hr⟩, rfl⟩))
    · exact List.mem_append.2 (.inr (List.mem_map.2 ⟨C, List.mem_filter.2 ⟨hC, by simpa using hr⟩, rfl⟩))

/-- C64: in particular no proof is lost with up to 119 clauses, fewer than can be triggered, if every symbol occurs in few of them. -/
theorem C64_rare_symbols_lose_nothing_partial {cfg : Sine.Cfg} {cls kept : List Sine.Cl} {rounds : Nat} (hn : Numbered cfg cls) (hl : cls.length < triggerLimit cfg.strat cls.length)
    (hsmall : cls.length ≤ 119) (hrare : ∀ c, count cls c ≤ rareUpTo cfg.strat cls.length)
    (hp : PlainProblem (lits cls)) (hpr : ∀ C ∈ cls, ∀ l ∈ C.lits, ∀ p as, l.atom = .app p as → p.isLongstr = true)
    (hax : Satisfiable (lits (cls.filter fun C => !C.goal))) (h : Sine.sine cfg cls rounds = some kept) (hu : ¬ Satisfiable (lits cls)) : ¬ Satisfiable (lits kept) :=
  C64_connected_lose_nothing_partial hn hl (fun _ c _ _ _ _ => .inl (hrare c))
    (fun _ hd => let ⟨k, h1, h2⟩ := Sine.few_near hd; ⟨k, by omega, h2⟩) hp hpr hax h hu

/-! ### Cases -/
namespace Sn

/-- a check for `Numbered` -/
def numberedB (cfg : Sine.Cfg) (cls : List Sine.Cl) : Bool :=
  let syms := cls.flatMap fun C => C.lits.flatMap fun l => names l.atom
  cls.all (fun C => decide (C.id < cfg.nb) && cls.all fun D => decide (C.id = D.id → C = D)) &&
  syms.all fun c => decide (cfg.uid c < cfg.ub) && syms.all fun d => decide (cfg.uid c = cfg.uid d → c = d)

theorem numbered_of {cfg : Sine.Cfg} {cls : List Sine.Cl} (h : numberedB cfg cls = true) : Numbered cfg cls := by
  unfold numberedB at h
  simp only [Bool.and_eq_true, List.all_eq_true, decide_eq_true_eq] at h
  obtain ⟨h1, h2⟩ := h
  have mem : ∀ c, ∀ C ∈ cls, has c C = true → c ∈ cls.flatMap fun C => C.lits.flatMap fun l => names l.atom := by
    intro c C hC hc
    simp only [has, Bool.and_eq_true, List.any_eq_true, decide_eq_true_eq] at hc
    obtain ⟨_, l, hl, hm⟩ := hc
    exact List.mem_flatMap.2 ⟨C, hC, List.mem_flatMap.2 ⟨l, hl, hm⟩⟩
  exact ⟨fun C hC => (h1 C hC).1, fun C hC D hD => (h1 C hC).2 D hD, fun c C hC hc => (h2 c (mem c C hC hc)).1,
    fun c d C hC D hD hc hd => (h2 c (mem c C hC hc)).2 d (mem d D hD hd)⟩

/-- predicates are symbols -/
theorem preds_of {cls : List Sine.Cl} (h : (cls.all fun C => C.lits.all fun l => match l.atom with | .app p _ => p.isLongstr | _ => true) = true) :
    ∀ C ∈ cls, ∀ l ∈ C.lits, ∀ p as, l.atom = .app p as → p.isLongstr = true := by
  intro C hC l hl p as e
  have := List.all_eq_true.1 (List.all_eq_true.1 h C hC) l hl
  rw [e] at this
  exact this

/-- symbols of the cases -/
def symbols : List Const := ["a", "b", "p0", "p1", "p2", "p3", "p4", "p5", "p6", "p7", "p8", "p9", "pa", "pb", "pc", "r", "s0", "s1", "s2", "t"].map .sym

def cfg (strat : Nat) : Sine.Cfg := ⟨strat, 100, 100, fun c => symbols.idxOf c, symbols⟩

/-- clauses are numbered from 0, the first is the goal -/
def number (goal : List Gkc.Lit) (axs : List (List Gkc.Lit)) : List Sine.Cl :=
  ⟨0, true, goal⟩ :: (List.range axs.length).zipWith (fun i C => ⟨i + 1, false, C⟩) axs

def unsatB (input : List (List Gkc.Lit)) : Bool := Cp.isProof (Loop.run (Cp.opts 100) 60 (Loop.start (Cp.opts 100) input))
theorem unsat_of {input : List (List Gkc.Lit)} (hin : PlainProblem input) (h : unsatB input = true) : ¬ Satisfiable input := by
  obtain ⟨s', h', hr⟩ := Cp.isProof_iff h
  rintro ⟨M, hM, all⟩
  obtain ⟨a, _⟩ := hM.two
  have : Nonempty M.D := ⟨a⟩
  obtain ⟨C, hC, hn⟩ := C61_proof_means_unsatisfiable (Cp.opts_fit (S := fun _ => True) (lim := 100) (by omega)).sort hin h' hr M
  exact hn (all C hC)

/-- if every clause has a literal of the same sign the clauses can all be true -/
theorem sat_of (b : Bool) {input : List (List Gkc.Lit)} (hin : PlainProblem input) (h : (input.all fun C => C.any fun l => l.neg == b) = true) : Satisfiable input := by
  refine satisfiable_of_terms hin (I := fun _ => b = false) fun C hC σ => ?_
  obtain ⟨l, hl, e⟩ := List.any_eq_true.1 (List.all_eq_true.1 h C hC)
  refine ⟨Lit.subst σ l, List.mem_map.2 ⟨l, hl, rfl⟩, ?_⟩
  have e : l.neg = b := by simpa using e
  show if l.neg = true then ¬ b = false else b = false
  rw [e]
  cases b <;> simp

/-- `-p2(X)`; `p0(a)`, `p0(X) => p1(X)`, `p1(X) => p2(X)`, and `r(b)`, `r(X) => t(X)` which have nothing to do with it -/
def apart : List Sine.Cl := number [Cp.nn "p2" (.var 0)]
  [[Cp.pp "p0" Cp.a], [Cp.nn "p0" (.var 0), Cp.pp "p1" (.var 0)], [Cp.nn "p1" (.var 0), Cp.pp "p2" (.var 0)],
   [Cp.pp "r" Cp.b], [Cp.nn "r" (.var 0), Cp.pp "t" (.var 0)]]

/-- the goal and the first three axioms are kept -/
example : (Sine.sine (cfg 2) apart 100).map (List.map (·.id)) = some [0, 1, 2, 3] := by decide +kernel

/-- without the goal no clause is kept -/
example : Sine.sine (cfg 2) apart.tail 100 = some [] := by decide +kernel

/-- the hypotheses are met -/
example : Numbered (cfg 2) apart ∧ apart.Nodup ∧ apart.length < triggerLimit (cfg 2).strat apart.length ∧ PlainProblem (lits apart) ∧
    (∀ C ∈ apart, ∀ l ∈ C.lits, ∀ p as, l.atom = .app p as → p.isLongstr = true) ∧ Satisfiable (lits (apart.filter fun C => !C.goal)) ∧ ¬ Satisfiable (lits apart) ∧
    ∃ kept, Sine.sine (cfg 2) apart 100 = some kept :=
  have hp : PlainProblem (lits apart) := Cp.plain_of (by decide +kernel)
  ⟨numbered_of (by decide +kernel), by decide +kernel, by decide +kernel, hp, preds_of (by decide +kernel),
   sat_of false (Cp.plain_of (by decide +kernel)) (by decide +kernel), unsat_of hp (by decide +kernel), Option.isSome_iff_exists.1 (by decide +kernel)⟩

theorem names_cls {cls : List Sine.Cl} {c : Const} (h : c ∉ cls.flatMap fun C => C.lits.flatMap fun l => names l.atom) : count cls c = 0 := by
  unfold count
  rw [List.countP_eq_zero]
  intro C hC hc
  simp only [has, Bool.and_eq_true, List.any_eq_true, decide_eq_true_eq] at hc
  obtain ⟨_, l, hl, hm⟩ := hc
  exact h (List.mem_flatMap.2 ⟨C, hC, List.mem_flatMap.2 ⟨l, hl, hm⟩⟩)

theorem rare_of {cls : List Sine.Cl} {n : Nat} (h : ((cls.flatMap fun C => C.lits.flatMap fun l => names l.atom).all fun c => decide (count cls c ≤ n)) = true) (c : Const) : count cls c ≤ n := by
  by_cases hc : c ∈ cls.flatMap fun C => C.lits.flatMap fun l => names l.atom
  · simpa using List.all_eq_true.1 h c hc
  · rw [names_cls hc]; omega

/-- so are those of the last theorem, and the kept clauses cannot all be true -/
example (kept : List Sine.Cl) (h : Sine.sine (cfg 2) apart 100 = some kept) : ¬ Satisfiable (lits kept) :=
  have hp : PlainProblem (lits apart) := Cp.plain_of (by decide +kernel)
  C64_rare_symbols_lose_nothing_partial (numbered_of (by decide +kernel)) (by decide +kernel) (by decide +kernel) (rare_of (by decide +kernel)) hp (preds_of (by decide +kernel))
    (sat_of false (Cp.plain_of (by decide +kernel)) (by decide +kernel)) h (unsat_of hp (by decide +kernel))

def pn (i : Nat) : String := (["p0", "p1", "p2", "p3", "p4", "p5", "p6", "p7", "p8", "p9", "pa", "pb"])[i]?.getD "pc"

/-- `-pc(X)`; `p0(a)` and twelve rules leading from `p0` to `pc` -/
def long : List Sine.Cl := number [Cp.nn "pc" (.var 0)]
  ([Cp.pp "p0" Cp.a] :: (List.range 12).map fun i => [Cp.nn (pn i) (.var 0), Cp.pp (pn (i + 1)) (.var 0)])

/-- `-r(X)`; `r(a)` and three more clauses with `r` -/
def five : List Sine.Cl := number [Cp.nn "r" (.var 0)]
  ([Cp.pp "r" Cp.a] :: ["s0", "s1", "s2"].map fun s => [Cp.nn "r" (.var 0), Cp.pp s (.var 0)])

end Sn

/-- C64 needs rare symbols.  Of the goal `-r(X)`, the fact `r(a)` and three rules with `r(X)`, the filter `"sine":1` keeps the goal alone: `r` is in five clauses, more than
four times as many as `a`, and so does not trigger the fact.  The search ends as if there were no proof. -/
theorem C64_frequent_symbol_loses_proof : ∃ (cfg : Sine.Cfg) (cls kept : List Sine.Cl) (rounds : Nat), cfg.strat = 1 ∧ cls.length = 5 ∧ Numbered cfg cls ∧ PlainProblem (lits cls) ∧
    Satisfiable (lits (cls.filter fun C => !C.goal)) ∧ Sine.sine cfg cls rounds = some kept ∧ ¬ Satisfiable (lits cls) ∧ Satisfiable (lits kept) := by
  obtain ⟨kept, hk⟩ := Option.isSome_iff_exists.1 (show (Sine.sine (Sn.cfg 1) five 100).isSome = true by decide +kernel)
  have e : kept = five.take 1 := by
    have : Sine.sine (Sn.cfg 1) five 100 = some (five.take 1) := by decide +kernel
    rw [hk] at this
    exact Option.some.inj this
  subst e
  have hp : PlainProblem (lits five) := Cp.plain_of (by decide +kernel)
  exact ⟨Sn.cfg 1, five, _, 100, rfl, rfl, numbered_of (by decide +kernel), hp, sat_of false (Cp.plain_of (by decide +kernel)) (by decide +kernel), hk,
    Sn.unsat_of hp (by decide +kernel), sat_of true (Cp.plain_of (by decide +kernel)) (by decide +kernel)⟩

/-- C64 needs fewer clauses than can be triggered.  With `"sine":2` only ten clauses are triggered in a problem of fewer than 110, and a chain of twelve rules is cut off though every
symbol is in two clauses at most. -/
theorem C64_trigger_limit_loses_proof : ∃ (cfg : Sine.Cfg) (cls kept : List Sine.Cl) (rounds : Nat), cfg.strat = 2 ∧ cls.length = 14 ∧ (∀ c, count cls c ≤ 2) ∧ Numbered cfg cls ∧
    PlainProblem (lits cls) ∧ Satisfiable (lits (cls.filter fun C => !C.goal)) ∧ Sine.sine cfg cls rounds = some kept ∧ kept.length = 11 ∧
    ¬ Satisfiable (lits cls) ∧ Satisfiable (lits kept) := by
  have hk : Sine.sine (Sn.cfg 2) long 100 = some (long.take 1 ++ long.drop 4) := by decide +kernel
  have hp : PlainProblem (lits long) := Cp.plain_of (by decide +kernel)
  exact ⟨Sn.cfg 2, long, _, 100, rfl, by decide +kernel, rare_of (by decide +kernel), numbered_of (by decide +kernel), hp, sat_of false (Cp.plain_of (by decide +kernel)) (by decide +kernel), hk,
    by decide +kernel, Sn.unsat_of hp (by decide +kernel), sat_of true (Cp.plain_of (by decide +kernel)) (by decide +kernel)⟩

end Gkc.Props
