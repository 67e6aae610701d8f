import Verif.Sine
import Verif.MetaLemmas
import Mathlib.Tactic.Tauto
import Mathlib.Order.Lattice
import Mathlib.Data.List.Perm.Subperm
/- Lemmas about the filter on input clauses. -/
namespace Gkc.Sine
open Gkc Term

/-- The specification of distance.  `O c C`: the symbol occurs in the clause, `T c C`: it triggers the clause.  The symbols of goals are
at distance 1; a symbol at distance `k`, at most 120, brings the symbols of the clauses it triggers to distance `k + 1`. -/
inductive Near (cls : List Cl) (O T : Const → Cl → Prop) : Nat → Const → Prop
  | goal {C : Cl} {c : Const} : C ∈ cls → C.goal = true → O c C → Near cls O T 1 c
  | step {k : Nat} {c d : Const} {C : Cl} : Near cls O T k c → k ≤ 120 → C ∈ cls → O c C → T c C → O d C → Near cls O T (k + 1) d

theorem Near.congr {cls : List Cl} {O T O' T' : Const → Cl → Prop} (hO : ∀ c C, C ∈ cls → (O c C ↔ O' c C)) (hT : ∀ c C, C ∈ cls → (T c C ↔ T' c C)) {k : Nat} {c : Const}
    (h : Near cls O T k c) : Near cls O' T' k c := by
  induction h with
  | goal h1 h2 h3 => exact .goal h1 h2 ((hO _ _ h1).1 h3)
  | step _ h2 h3 h4 h5 h6 ih => exact .step ih h2 h3 ((hO _ _ h3).1 h4) ((hT _ _ h3).1 h5) ((hO _ _ h3).1 h6)

/-! ### Symbols of clauses -/

theorem mem_addSym {c d : Const} {acc : List Const} : d ∈ addSym c acc ↔ d ∈ acc ∨ (d = c ∧ c.isLongstr = true) := by
  unfold addSym
  split
  · rename_i h
    simp only [Bool.not_eq_true'] at h
    simp [h]
  · rename_i h
    simp only [Bool.not_eq_true', Bool.not_eq_false] at h
    split
    · rename_i h'
      constructor
      · exact .inl
      · rintro (h | ⟨rfl, _⟩)
        · exact h
        · exact h'
    · simp [h]

mutual
theorem mem_termSyms {d : Const} : ∀ (t : Term) {acc : List Const}, d ∈ termSyms t acc ↔ d ∈ acc ∨ (d.isLongstr = true ∧ some d ∈ syms t)
  | .var _, acc => by simp [termSyms, syms]
  | .const c, acc => by
    simp only [termSyms, syms, mem_addSym, List.mem_singleton, Option.some.injEq]
    constructor
    · rintro (h | ⟨rfl, h⟩)
      · exact .inl h
      · exact .inr ⟨h, rfl⟩
    · rintro (h | ⟨h, rfl⟩)
      · exact .inl h
      · exact .inr ⟨rfl, h⟩
  | .app f as, acc => by
    simp only [termSyms, syms, mem_termSymsL as, mem_addSym, List.mem_cons, Option.some.injEq]
    constructor
    · rintro ((h | ⟨rfl, h⟩) | ⟨h, h'⟩)
      · exact .inl h
      · exact .inr ⟨h, .inl rfl⟩
      · exact .inr ⟨h, .inr h'⟩
    · rintro (h | ⟨h, rfl | h'⟩)
      · exact .inl (.inl h)
      · exact .inl (.inr ⟨rfl, h⟩)
      · exact .inr ⟨h, h'⟩
theorem mem_termSymsL {d : Const} : ∀ (as : List Term) {acc : List Const}, d ∈ termSymsL as acc ↔ d ∈ acc ∨ (d.isLongstr = true ∧ some d ∈ symsL as)
  | [], acc => by simp [termSymsL, symsL]
  | a :: as, acc => by
    simp only [termSymsL, symsL, mem_termSymsL as, mem_termSyms a, List.mem_append]
    tauto
end

theorem mem_clSyms {d : Const} {C : Cl} {acc : List Const} : d ∈ clSyms C acc ↔ d ∈ acc ∨ (d.isLongstr = true ∧ ∃ l ∈ C.lits, some d ∈ syms l.atom) := by
  unfold clSyms
  generalize C.lits = ls
  induction ls generalizing acc with
  | nil => simp
  | cons l ls ih =>
    simp only [List.foldl_cons, ih, mem_termSyms, List.mem_cons, exists_eq_or_imp]
    tauto

theorem mem_clSyms' {d : Const} {C : Cl} {acc : List Const} : d ∈ clSyms C acc ↔ d ∈ acc ∨ d ∈ clSyms C [] := by
  rw [mem_clSyms, mem_clSyms (acc := [])]
  simp

mutual
theorem checkTerm_iff {p : Const → Bool} : ∀ t : Term, checkTerm p t = true ↔ ∀ d, d.isLongstr = true → some d ∈ syms t → p d = true
  | .var _ => by simp [checkTerm, syms]
  | .const c => by
    simp only [checkTerm, syms, Bool.or_eq_true, Bool.not_eq_true', List.mem_singleton, Option.some.injEq]
    constructor
    · rintro h d hd rfl
      rcases h with h | h
      · rw [hd] at h; cases h
      · exact h
    · intro h
      cases e : c.isLongstr with
      | false => exact .inl rfl
      | true => exact .inr (h c e rfl)
  | .app f as => by
    simp only [checkTerm, syms, Bool.and_eq_true, Bool.or_eq_true, Bool.not_eq_true', checkTermL_iff as, List.mem_cons, Option.some.injEq]
    constructor
    · rintro ⟨h1, h2⟩ d hd (rfl | h)
      · rcases h1 with h | h
        · rw [hd] at h; cases h
        · exact h
      · exact h2 d hd h
    · intro h
      refine ⟨?_, fun d hd hm => h d hd (.inr hm)⟩
      cases e : f.isLongstr with
      | false => exact .inl rfl
      | true => exact .inr (h f e (.inl rfl))
theorem checkTermL_iff {p : Const → Bool} : ∀ as : List Term, checkTermL p as = true ↔ ∀ d, d.isLongstr = true → some d ∈ symsL as → p d = true
  | [] => by simp [checkTermL, symsL]
  | a :: as => by
    simp only [checkTermL, symsL, Bool.and_eq_true, checkTerm_iff a, checkTermL_iff as, List.mem_append]
    constructor
    · rintro ⟨h1, h2⟩ d hd (h | h)
      · exact h1 d hd h
      · exact h2 d hd h
    · exact fun h => ⟨fun d hd hm => h d hd (.inl hm), fun d hd hm => h d hd (.inr hm)⟩
end

theorem checkCl_iff {p : Const → Bool} {C : Cl} : checkCl p C = true ↔ ∀ d ∈ clSyms C [], p d = true := by
  unfold checkCl
  simp only [List.all_eq_true, checkTerm_iff, mem_clSyms, List.not_mem_nil, false_or]
  constructor
  · rintro h d ⟨hd, l, hl, hm⟩
    exact h l hl d hd hm
  · intro h l hl d hd hm
    exact h d ⟨hd, l, hl, hm⟩

theorem mem_occs {cls : List Cl} {c : Const} {C : Cl} : C ∈ occs cls c ↔ C ∈ cls ∧ c ∈ clSyms C [] := by
  simp [occs]

/-! ### Tables -/

variable {cfg : Cfg} {cls : List Cl}

/-- the symbol occurs -/
def Sym (cls : List Cl) (c : Const) : Prop := ∃ C ∈ cls, c ∈ clSyms C []

/-- different clauses and symbols have different places in the tables -/
structure Tab (cfg : Cfg) (cls : List Cl) : Prop where
  cl : ∀ C ∈ cls, C.id < cfg.nb
  inj : ∀ C ∈ cls, ∀ D ∈ cls, C.id = D.id → C = D
  sy : ∀ c, Sym cls c → cfg.uid c < cfg.ub
  syInj : ∀ c d, Sym cls c → Sym cls d → cfg.uid c = cfg.uid d → c = d

@[simp] theorem setC_ku (s : St) (C : Cl) (k : Nat) : (setC cfg s C k).ku = s.ku := by unfold setC; split <;> rfl
@[simp] theorem setC_queue (s : St) (C : Cl) (k : Nat) : (setC cfg s C k).queue = s.queue := by unfold setC; split <;> rfl
@[simp] theorem setC_triggers (s : St) (C : Cl) (k : Nat) : (setC cfg s C k).triggers = s.triggers := by unfold setC; split <;> rfl
@[simp] theorem setU_kc (s : St) (c : Const) (k : Nat) : (setU cfg s c k).kc = s.kc := by unfold setU; split <;> rfl
@[simp] theorem setU_queue (s : St) (c : Const) (k : Nat) : (setU cfg s c k).queue = s.queue := by unfold setU; split <;> rfl
@[simp] theorem setU_triggers (s : St) (c : Const) (k : Nat) : (setU cfg s c k).triggers = s.triggers := by unfold setU; split <;> rfl

theorem getU_of {s s' : St} (h : s.ku = s'.ku) (c : Const) : getU cfg s c = getU cfg s' c := by unfold getU; rw [h]
theorem getC_of {s s' : St} (h : s.kc = s'.kc) (C : Cl) : getC cfg s C = getC cfg s' C := by unfold getC; rw [h]

theorem Tab.getC_set (h : Tab cfg cls) {C D : Cl} (hC : C ∈ cls) (hD : D ∈ cls) (s : St) (k : Nat) :
    getC cfg (setC cfg s C k) D = if D = C then k else getC cfg s D := by
  have h1 := h.cl C hC; have h2 := h.cl D hD
  unfold getC setC
  rw [if_neg (by omega), if_neg (by omega)]
  simp only [if_neg (show ¬ D.id ≥ cfg.nb by omega)]
  by_cases e : D = C
  · simp [e]
  · rw [if_neg e, if_neg fun e' => e (h.inj D hD C hC e')]

theorem Tab.getU_set (h : Tab cfg cls) {c d : Const} (hc : Sym cls c) (hd : Sym cls d) (s : St) (k : Nat) :
    getU cfg (setU cfg s c k) d = if d = c then k else getU cfg s d := by
  have h1 := h.sy c hc; have h2 := h.sy d hd
  unfold getU setU
  rw [if_neg (by omega), if_neg (by omega)]
  simp only [if_neg (show ¬ cfg.uid d ≥ cfg.ub by omega)]
  by_cases e : d = c
  · simp [e]
  · rw [if_neg e, if_neg fun e' => e (h.syInj d c hd hc e')]

/-! ### Pushing symbols -/

theorem pushSyms_kc (k : Nat) : ∀ (cs : List Const) (s : St), (pushSyms cfg k cs s).kc = s.kc ∧ (pushSyms cfg k cs s).triggers = s.triggers
  | [], s => ⟨rfl, rfl⟩
  | c :: cs, s => by
    unfold pushSyms
    split
    · obtain ⟨h1, h2⟩ := pushSyms_kc k cs { setU cfg s c (k + 1) with queue := (setU cfg s c (k + 1)).queue ++ [c] }
      exact ⟨by simpa using h1, by simpa using h2⟩
    · exact pushSyms_kc k cs s

theorem pushSyms_length (k : Nat) : ∀ (cs : List Const) (s : St), (pushSyms cfg k cs s).queue.length ≤ s.queue.length + cs.length
  | [], s => by simp [pushSyms]
  | c :: cs, s => by
    unfold pushSyms
    split
    · have := pushSyms_length k cs { setU cfg s c (k + 1) with queue := (setU cfg s c (k + 1)).queue ++ [c] }
      simp only [setU_queue, List.length_append, List.length_cons, List.length_nil] at *
      omega
    · have := pushSyms_length k cs s
      simp only [List.length_cons]
      omega

theorem pushSyms_queue (k : Nat) : ∀ (cs : List Const) (s : St) (d : Const), (d ∈ s.queue → d ∈ (pushSyms cfg k cs s).queue) ∧
    (d ∈ (pushSyms cfg k cs s).queue → d ∈ s.queue ∨ d ∈ cs)
  | [], s, d => ⟨id, .inl⟩
  | c :: cs, s, d => by
    unfold pushSyms
    split
    · obtain ⟨h1, h2⟩ := pushSyms_queue k cs { setU cfg s c (k + 1) with queue := (setU cfg s c (k + 1)).queue ++ [c] } d
      simp only [setU_queue, List.mem_append, List.mem_cons] at *
      tauto
    · obtain ⟨h1, h2⟩ := pushSyms_queue k cs s d
      simp only [List.mem_cons]
      tauto

theorem pushSyms_ku (ht : Tab cfg cls) (k : Nat) : ∀ (cs : List Const) (s : St), (∀ c ∈ cs, Sym cls c) → ∀ d, Sym cls d →
    getU cfg (pushSyms cfg k cs s) d = (if d ∈ cs ∧ (getU cfg s d = 0 ∨ getU cfg s d > k + 1) then k + 1 else getU cfg s d) ∧
    (d ∈ cs → (getU cfg s d = 0 ∨ getU cfg s d > k + 1) → d ∈ (pushSyms cfg k cs s).queue)
  | [], s, _, d, _ => by simp [pushSyms]
  | c :: cs, s, hs, d, hd => by
    have hc := hs c (by simp)
    have hs' : ∀ c ∈ cs, Sym cls c := fun c hc => hs c (by simp [hc])
    unfold pushSyms
    split
    · rename_i hif
      obtain ⟨h1, h2⟩ := pushSyms_ku ht k cs { setU cfg s c (k + 1) with queue := (setU cfg s c (k + 1)).queue ++ [c] } hs' d hd
      have q := (pushSyms_queue (cfg := cfg) k cs { setU cfg s c (k + 1) with queue := (setU cfg s c (k + 1)).queue ++ [c] } c).1 (by simp)
      have e : getU cfg { setU cfg s c (k + 1) with queue := (setU cfg s c (k + 1)).queue ++ [c] } d = if d = c then k + 1 else getU cfg s d :=
        (getU_of rfl d).trans (ht.getU_set hc hd s (k + 1))
      rw [e] at h1 h2
      by_cases hdc : d = c
      · subst hdc
        simp only [if_true] at h1 h2
        refine ⟨?_, fun _ _ => q⟩
        rw [h1, if_neg (by omega), if_pos ⟨by simp, hif⟩]
      · rw [if_neg hdc] at h1 h2
        simp only [List.mem_cons, hdc, false_or]
        exact ⟨h1, h2⟩
    · rename_i hif
      obtain ⟨h1, h2⟩ := pushSyms_ku ht k cs s hs' d hd
      by_cases hdc : d = c
      · subst hdc
        rw [h1]
        simp only [hif, and_false, if_false]
        exact ⟨trivial, fun _ h => h.elim⟩
      · simp only [List.mem_cons, hdc, false_or]
        exact ⟨h1, h2⟩

/-! ### Termination -/

/-- places of the queue that can still be filled -/
def pot (cfg : Cfg) (n L : Nat) (s : St) : Nat := s.queue.length + (maxTriggers cfg n - s.triggers) * L

theorem visit_pot {L k sc : Nat} : ∀ {Cs : List Cl} {s : St}, (∀ C ∈ Cs, (clSyms C []).length ≤ L) → s.triggers < maxTriggers cfg cls.length →
    pot cfg cls.length L (visit cfg cls k sc Cs s) ≤ pot cfg cls.length L s
  | [], s, _, _ => by simp [visit]
  | C :: Cs, s, hL, hm => by
    have hL' : ∀ C ∈ Cs, (clSyms C []).length ≤ L := fun C hC => hL C (by simp [hC])
    unfold visit
    split
    · split
      · exact visit_pot hL' hm
      · simp only
        split
        · unfold pot
          simp only [setC_triggers, setC_queue]
          have : (maxTriggers cfg cls.length - (s.triggers + 1)) * L ≤ (maxTriggers cfg cls.length - s.triggers) * L := Nat.mul_le_mul_right _ (by omega)
          omega
        · rename_i hlt
          simp only [setC_triggers, ge_iff_le, not_le] at hlt
          have hs : (pushSyms cfg k (clSyms C []) { setC cfg s C (k + 1) with triggers := (setC cfg s C (k + 1)).triggers + 1 }).triggers = s.triggers + 1 := by
            rw [(pushSyms_kc _ _ _).2]; simp
          have hl : (pushSyms cfg k (clSyms C []) { setC cfg s C (k + 1) with triggers := (setC cfg s C (k + 1)).triggers + 1 }).queue.length ≤ s.queue.length + (clSyms C []).length := by
            refine (pushSyms_length _ _ _).trans ?_
            simp
          refine (visit_pot hL' (by rw [hs]; exact hlt)).trans ?_
          unfold pot
          rw [hs]
          refine le_trans (Nat.add_le_add_right hl _) ?_
          have := hL C (by simp)
          have e : maxTriggers cfg cls.length - s.triggers = (maxTriggers cfg cls.length - (s.triggers + 1)) + 1 := by omega
          rw [e, Nat.add_mul]
          omega
    · exact visit_pot hL' hm

theorem loop_some {L : Nat} (hL : ∀ C ∈ cls, (clSyms C []).length ≤ L) : ∀ {f : Nat} {s : St}, pot cfg cls.length L s < f → ∃ s', loop cfg cls f s = some s'
  | 0, s, h => by omega
  | f + 1, s, h => by
    unfold loop
    split
    · exact ⟨_, rfl⟩
    · rename_i c q e
      split
      · exact ⟨_, rfl⟩
      · rename_i hm
        have hp : pot cfg cls.length L { s with queue := q } + 1 = pot cfg cls.length L s := by
          unfold pot; rw [e]; simp only [List.length_cons]; omega
        simp only
        split
        · exact loop_some hL (by omega)
        · refine loop_some hL (Nat.lt_of_le_of_lt (visit_pot (fun C hC => hL C (mem_occs.1 hC).1) ?_) (show pot cfg cls.length L { s with queue := q } < f by omega))
          exact not_le.1 hm

theorem loop_more : ∀ {f : Nat} {s s' : St}, loop cfg cls f s = some s' → ∀ {g : Nat}, f ≤ g → loop cfg cls g s = some s'
  | 0, _, _, h, _, _ => by simp [loop] at h
  | f + 1, s, s', h, 0, hg => by omega
  | f + 1, s, s', h, g + 1, hg => by
    unfold loop at h ⊢
    split
    · rename_i e
      simpa [e] using h
    · rename_i c q e
      simp only [e] at h
      split
      · rename_i hm
        rwa [if_pos hm] at h
      · rename_i hm
        rw [if_neg hm] at h
        simp only at h ⊢
        split
        · rename_i hk
          rw [if_pos hk] at h
          exact loop_more h (by omega)
        · rename_i hk
          rw [if_neg hk] at h
          exact loop_more h (by omega)

/-! ### What the numbers mean -/

/-- the symbol triggers the clause -/
def T (cfg : Cfg) (cls : List Cl) (c : Const) (C : Cl) : Prop :=
  ¬ (scount cls c > sineG cfg cls.length ∧ trig cls (tol2 cfg cls.length) (scount cls c) C = false)

/-- distance in terms of the model -/
def Nr (cfg : Cfg) (cls : List Cl) : Nat → Const → Prop := Near cls (fun c C => c ∈ clSyms C []) (T cfg cls)

/-- a reason to use a clause, apart from being common -/
def Why (cfg : Cfg) (cls : List Cl) (C : Cl) : Prop := C.goal = true ∨ ∃ k c, Nr cfg cls k c ∧ k ≤ 120 ∧ c ∈ clSyms C [] ∧ T cfg cls c C

/-- numbers are justified; `K` are the clauses taken as common -/
structure Snd (cfg : Cfg) (cls : List Cl) (K : Cl → Prop) (s : St) : Prop where
  sy : ∀ c, Sym cls c → getU cfg s c ≠ 0 → Nr cfg cls (getU cfg s c) c
  cl : ∀ C ∈ cls, getC cfg s C ≠ 0 → Why cfg cls C ∨ K C
  queue : ∀ c ∈ s.queue, Sym cls c ∧ getU cfg s c ≠ 0
  stay : ∀ C ∈ cls, (C.goal = true ∨ K C) → getC cfg s C ≠ 0

theorem visit_snd (ht : Tab cfg cls) {K : Cl → Prop} {k : Nat} {u : Const} (hu : Nr cfg cls k u) (hk : k ≤ 120) : ∀ {Cs : List Cl} {s : St},
    (∀ C ∈ Cs, C ∈ cls ∧ u ∈ clSyms C []) → Snd cfg cls K s → Snd cfg cls K (visit cfg cls k (scount cls u) Cs s)
  | [], s, _, h => by simpa [visit] using h
  | C :: Cs, s, hC, h => by
    have hC' : ∀ C ∈ Cs, C ∈ cls ∧ u ∈ clSyms C [] := fun C hc => hC C (by simp [hc])
    obtain ⟨hm, hin⟩ := hC C (by simp)
    unfold visit
    split
    · split
      · exact visit_snd ht hu hk hC' h
      · rename_i hT
        have s1 : Snd cfg cls K { setC cfg s C (k + 1) with triggers := (setC cfg s C (k + 1)).triggers + 1 } := by
          have e : ∀ D ∈ cls, getC cfg { setC cfg s C (k + 1) with triggers := (setC cfg s C (k + 1)).triggers + 1 } D = if D = C then k + 1 else getC cfg s D :=
            fun D hD => (getC_of rfl D).trans (ht.getC_set hm hD s (k + 1))
          have eu : ∀ c, getU cfg { setC cfg s C (k + 1) with triggers := (setC cfg s C (k + 1)).triggers + 1 } c = getU cfg s c :=
            fun c => getU_of (by simp) c
          refine ⟨fun c hc => by rw [eu]; exact h.sy c hc, fun D hD => ?_, fun c hc => by rw [eu]; exact h.queue c (by simpa using hc), fun D hD hg => ?_⟩
          · rw [e D hD]
            split
            · rename_i e; subst e
              exact fun _ => .inl (.inr ⟨k, u, hu, hk, hin, hT⟩)
            · exact h.cl D hD
          · rw [e D hD]
            split
            · omega
            · exact h.stay D hD hg
        simp only
        split
        · exact s1
        · refine visit_snd ht hu hk hC' ?_
          have hs : ∀ c ∈ clSyms C [], Sym cls c := fun c hc => ⟨C, hm, hc⟩
          have hkc := (pushSyms_kc (cfg := cfg) k (clSyms C []) { setC cfg s C (k + 1) with triggers := (setC cfg s C (k + 1)).triggers + 1 }).1
          have hpu := pushSyms_ku ht k (clSyms C []) { setC cfg s C (k + 1) with triggers := (setC cfg s C (k + 1)).triggers + 1 } hs
          have hpq := pushSyms_queue (cfg := cfg) k (clSyms C []) { setC cfg s C (k + 1) with triggers := (setC cfg s C (k + 1)).triggers + 1 }
          refine ⟨fun c hc => ?_, fun D hD => by rw [getC_of hkc]; exact s1.cl D hD, fun c hc => ?_, fun D hD => by rw [getC_of hkc]; exact s1.stay D hD⟩
          · rw [(hpu c hc).1]
            split
            · rename_i hif
              exact fun _ => .step hu hk hm hin hT hif.1
            · exact s1.sy c hc
          · rcases (hpq c).2 hc with hq | hq
            · obtain ⟨a, b⟩ := s1.queue c hq
              refine ⟨a, ?_⟩
              rw [(hpu c a).1]
              split
              · omega
              · exact b
            · refine ⟨hs c hq, ?_⟩
              rw [(hpu c (hs c hq)).1]
              split
              · omega
              · rename_i hif
                intro h0
                exact hif ⟨hq, .inl h0⟩
    · exact visit_snd ht hu hk hC' h

theorem loop_snd (ht : Tab cfg cls) {K : Cl → Prop} : ∀ {f : Nat} {s s' : St}, loop cfg cls f s = some s' → Snd cfg cls K s → Snd cfg cls K s'
  | 0, _, _, h, _ => by simp [loop] at h
  | f + 1, s, s', h, hs => by
    unfold loop at h
    split at h
    · cases h; exact hs
    · rename_i c q e
      split at h
      · cases h; exact hs
      · have hq : Snd cfg cls K { s with queue := q } := ⟨hs.sy, hs.cl, fun d hd => hs.queue d (by rw [e]; exact List.mem_cons_of_mem _ hd), hs.stay⟩
        simp only at h
        split at h
        · exact loop_snd ht h hq
        · rename_i hk
          obtain ⟨h1, h2⟩ := hs.queue c (by rw [e]; simp)
          exact loop_snd ht h (visit_snd ht (hs.sy c h1 h2) (not_lt.1 hk) (fun C hC => mem_occs.1 hC) hq)

/-! ### Nothing near is left out -/

/-- symbols of clauses with a number up to 120 have no larger number, and clauses triggered by symbols that are done have a number; `P c C` marks what is still to do -/
structure Cmp (cfg : Cfg) (cls : List Cl) (P : Const → Cl → Prop) (s : St) : Prop where
  cl : ∀ C ∈ cls, getC cfg s C ≠ 0 → getC cfg s C ≤ 120 → ∀ d ∈ clSyms C [], getU cfg s d ≠ 0 ∧ getU cfg s d ≤ getC cfg s C
  sy : ∀ c, Sym cls c → getU cfg s c ≠ 0 → getU cfg s c ≤ 120 → c ∈ s.queue ∨
    ∀ C ∈ cls, c ∈ clSyms C [] → T cfg cls c C → P c C ∨ (getC cfg s C ≠ 0 ∧ getC cfg s C ≤ getU cfg s c + 1)

theorem visit_triggers {k sc : Nat} : ∀ {Cs : List Cl} {s : St}, s.triggers ≤ (visit cfg cls k sc Cs s).triggers
  | [], s => by simp [visit]
  | C :: Cs, s => by
    unfold visit
    split
    · split
      · exact visit_triggers
      · simp only
        split
        · simp
        · refine le_trans ?_ visit_triggers
          rw [(pushSyms_kc _ _ _).2]
          simp
    · exact visit_triggers

theorem visit_cmp (ht : Tab cfg cls) {k : Nat} {u : Const} (hsu : Sym cls u) (hk0 : k ≠ 0) (hk : k ≤ 120) : ∀ {Cs : List Cl} {s : St}, (∀ C ∈ Cs, C ∈ cls ∧ u ∈ clSyms C []) →
    (visit cfg cls k (scount cls u) Cs s).triggers < maxTriggers cfg cls.length → getU cfg s u = k → Cmp cfg cls (fun c C => c = u ∧ C ∈ Cs) s →
    Cmp cfg cls (fun _ _ => False) (visit cfg cls k (scount cls u) Cs s)
  | [], s, _, _, _, h => by
    simp only [visit]
    exact ⟨h.cl, fun c hc h0 hk => (h.sy c hc h0 hk).imp_right fun h C hC hi hT => by simpa using h C hC hi hT⟩
  | C :: Cs, s, hC, hm, hu, h => by
    have hC' : ∀ C ∈ Cs, C ∈ cls ∧ u ∈ clSyms C [] := fun C hc => hC C (by simp [hc])
    obtain ⟨hCm, hin⟩ := hC C (by simp)
    unfold visit at hm ⊢
    split
    · rename_i hif
      rw [if_pos hif] at hm
      split
      · rename_i hT
        rw [if_pos hT] at hm
        refine visit_cmp ht hsu hk0 hk hC' hm hu ⟨h.cl, fun c hc h0 hk => (h.sy c hc h0 hk).imp_right fun h D hD hi hT' => ?_⟩
        rcases h D hD hi hT' with ⟨rfl, hmem⟩ | h
        · rcases List.mem_cons.1 hmem with rfl | hmem
          · exact absurd hT hT'
          · exact .inl ⟨rfl, hmem⟩
        · exact .inr h
      · rename_i hT
        rw [if_neg hT] at hm
        simp only at hm ⊢
        split
        · rename_i hmx
          rw [if_pos hmx] at hm
          simp only at hm
          omega
        · rename_i hmx
          rw [if_neg hmx] at hm
          have hs : ∀ c ∈ clSyms C [], Sym cls c := fun c hc => ⟨C, hCm, hc⟩
          have hkc := (pushSyms_kc (cfg := cfg) k (clSyms C []) { setC cfg s C (k + 1) with triggers := (setC cfg s C (k + 1)).triggers + 1 }).1
          have hpu := pushSyms_ku ht k (clSyms C []) { setC cfg s C (k + 1) with triggers := (setC cfg s C (k + 1)).triggers + 1 } hs
          have hpq := pushSyms_queue (cfg := cfg) k (clSyms C []) { setC cfg s C (k + 1) with triggers := (setC cfg s C (k + 1)).triggers + 1 }
          have eu : ∀ c, getU cfg { setC cfg s C (k + 1) with triggers := (setC cfg s C (k + 1)).triggers + 1 } c = getU cfg s c :=
            fun c => getU_of (by simp) c
          have ec : ∀ D ∈ cls, getC cfg (pushSyms cfg k (clSyms C []) { setC cfg s C (k + 1) with triggers := (setC cfg s C (k + 1)).triggers + 1 }) D =
              if D = C then k + 1 else getC cfg s D := fun D hD => (getC_of hkc D).trans ((getC_of rfl D).trans (ht.getC_set hCm hD s (k + 1)))
          refine visit_cmp ht hsu hk0 hk hC' hm ?_ ⟨fun D hD => ?_, fun c hc => ?_⟩
          · rw [(hpu u hsu).1, eu, hu, if_neg (by omega)]
          · rw [ec D hD]
            split
            · rename_i e; subst e
              intro _ _ d hd
              rw [(hpu d (hs d hd)).1, eu]
              split
              · omega
              · rename_i hn
                have hn : ¬ (getU cfg s d = 0 ∨ getU cfg s d > k + 1) := fun h => hn ⟨hd, h⟩
                omega
            · intro h0 h1 d hd
              have := h.cl D hD h0 h1 d hd
              rw [(hpu d ⟨D, hD, hd⟩).1, eu]
              split
              · rename_i hx
                have := hx.2
                omega
              · exact this
          · rw [(hpu c hc).1, eu]
            split
            · rename_i hx
              intro _ _
              exact .inl ((hpu c hc).2 hx.1 (by rw [eu]; exact hx.2))
            · intro h0 h1
              rcases h.sy c hc h0 h1 with hq | hall
              · exact .inl ((hpq c).1 (by simpa using hq))
              · refine .inr fun D hD hi hT' => ?_
                rw [ec D hD]
                rcases hall D hD hi hT' with ⟨rfl, hmem⟩ | ⟨n0, n1⟩
                · rcases List.mem_cons.1 hmem with rfl | hmem
                  · rw [if_pos rfl]
                    exact .inr ⟨by omega, by omega⟩
                  · exact .inl ⟨rfl, hmem⟩
                · right
                  split
                  · rename_i e; subst e
                    omega
                  · exact ⟨n0, n1⟩
    · rename_i hif
      rw [if_neg hif] at hm
      refine visit_cmp ht hsu hk0 hk hC' hm hu ⟨h.cl, fun c hc h0 hk => (h.sy c hc h0 hk).imp_right fun h D hD hi hT' => ?_⟩
      rcases h D hD hi hT' with ⟨rfl, hmem⟩ | h
      · rcases List.mem_cons.1 hmem with rfl | hmem
        · right; omega
        · exact .inl ⟨rfl, hmem⟩
      · exact .inr h

theorem loop_triggers : ∀ {f : Nat} {s s' : St}, loop cfg cls f s = some s' → s.triggers ≤ s'.triggers
  | 0, _, _, h => by simp [loop] at h
  | f + 1, s, s', h => by
    unfold loop at h
    split at h
    · cases h; exact Nat.le_refl _
    · rename_i c q _
      split at h
      · cases h; exact Nat.le_refl _
      · simp only at h
        split at h
        · have := loop_triggers h
          exact this
        · have h1 := loop_triggers h
          exact le_trans (visit_triggers (s := { s with queue := q })) h1

theorem loop_cmp (ht : Tab cfg cls) {K : Cl → Prop} : ∀ {f : Nat} {s s' : St}, loop cfg cls f s = some s' → s'.triggers < maxTriggers cfg cls.length →
    Snd cfg cls K s → Cmp cfg cls (fun _ _ => False) s → Cmp cfg cls (fun _ _ => False) s' ∧ s'.queue = []
  | 0, _, _, h, _, _, _ => by simp [loop] at h
  | f + 1, s, s', h, hm, hs, hc => by
    unfold loop at h
    split at h
    · rename_i e
      cases h; exact ⟨hc, e⟩
    · rename_i c q e
      split at h
      · cases h; omega
      · have hq : Snd cfg cls K { s with queue := q } := ⟨hs.sy, hs.cl, fun d hd => hs.queue d (by rw [e]; exact List.mem_cons_of_mem _ hd), hs.stay⟩
        obtain ⟨h1, h2⟩ := hs.queue c (by rw [e]; simp)
        simp only at h
        split at h
        · rename_i hk
          have hk : getU cfg s c > 120 := hk
          refine loop_cmp ht h hm hq ⟨hc.cl, fun d hd n0 n1 => ?_⟩
          have n0 : getU cfg s d ≠ 0 := n0
          have n1 : getU cfg s d ≤ 120 := n1
          rcases hc.sy d hd n0 n1 with hx | hx
          · rw [e] at hx
            rcases List.mem_cons.1 hx with rfl | hx
            · omega
            · exact .inl hx
          · exact .inr hx
        · rename_i hk
          have hk : getU cfg s c ≤ 120 := not_lt.1 hk
          have hv := visit_snd ht (hs.sy c h1 h2) hk (fun C hC => mem_occs.1 hC) hq (Cs := occs cls c)
          refine loop_cmp ht h hm hv (visit_cmp ht h1 h2 hk (fun C hC => mem_occs.1 hC) (Nat.lt_of_le_of_lt (loop_triggers h) hm) rfl ⟨hc.cl, fun d hd n0 n1 => ?_⟩)
          rcases hc.sy d hd n0 n1 with hx | hx
          · rw [e] at hx
            rcases List.mem_cons.1 hx with rfl | hx
            · exact .inr fun C hC hi _ => .inl ⟨rfl, mem_occs.2 ⟨hC, hi⟩⟩
            · exact .inl hx
          · exact .inr fun C hC hi hT => .inr ((hx C hC hi hT).resolve_left id)

theorem near_pos {O T : Const → Cl → Prop} {k : Nat} {c : Const} (h : Near cls O T k c) : k ≠ 0 := by cases h <;> omega

/-- in the end the numbers of symbols are at most their distances -/
theorem near_le {s : St} (h : Cmp cfg cls (fun _ _ => False) s) (hq : s.queue = []) (hg : ∀ C ∈ cls, C.goal = true → ∀ c ∈ clSyms C [], getU cfg s c ≠ 0 ∧ getU cfg s c ≤ 1)
    {k : Nat} {c : Const} (hn : Nr cfg cls k c) : Sym cls c ∧ (k ≤ 120 → getU cfg s c ≠ 0 ∧ getU cfg s c ≤ k) := by
  induction hn with
  | goal h1 h2 h3 => exact ⟨⟨_, h1, h3⟩, fun _ => hg _ h1 h2 _ h3⟩
  | @step k c d C h1 h2 h3 h4 h5 h6 ih =>
    refine ⟨⟨C, h3, h6⟩, fun hk => ?_⟩
    obtain ⟨hs, ih⟩ := ih
    obtain ⟨a, b⟩ := ih h2
    rcases h.sy c hs a (by omega) with hx | hx
    · rw [hq] at hx; cases hx
    · rcases hx C h3 h4 h5 with hf | ⟨x, y⟩
      · exact hf.elim
      · have := h.cl C h3 x (by omega) d h6
        omega

/-! ### The beginning -/

/-- the clauses taken as common -/
def commons (cfg : Cfg) (cls : List Cl) : List Cl :=
  (cls.filter fun C => !C.goal && decide (sineCommon cfg cls ≠ 0) && common cls (sineCommon cfg cls) C).take (sineMaxcommon cfg)

theorem firstLoop_spec (ht : Tab cfg cls) : ∀ {Cs : List Cl} {s : St} {found : Nat}, (∀ C ∈ Cs, C ∈ cls) →
    (∀ c, c ∈ (firstLoop cfg cls Cs s found).1.queue ↔ c ∈ s.queue ∨ ∃ C ∈ Cs, C.goal = true ∧ c ∈ clSyms C []) ∧
    (firstLoop cfg cls Cs s found).1.ku = s.ku ∧ (firstLoop cfg cls Cs s found).1.triggers = s.triggers ∧
    ∀ D ∈ cls, getC cfg (firstLoop cfg cls Cs s found).1 D =
      if D ∈ Cs ∧ D.goal = true then 1
      else if D ∈ (Cs.filter fun C => !C.goal && decide (sineCommon cfg cls ≠ 0) && common cls (sineCommon cfg cls) C).take (sineMaxcommon cfg - found) then 121
      else getC cfg s D
  | [], s, found, _ => by simp [firstLoop]
  | C :: Cs, s, found, hC => by
    have hC' : ∀ C ∈ Cs, C ∈ cls := fun C hc => hC C (by simp [hc])
    have hCm := hC C (by simp)
    unfold firstLoop
    split
    · rename_i hg
      obtain ⟨h1, h2, h3, h4⟩ := firstLoop_spec ht (Cs := Cs) (s := { setC cfg s C 1 with queue := clSyms C (setC cfg s C 1).queue }) (found := found) hC'
      refine ⟨fun c => ?_, by rw [h2]; simp, by rw [h3]; simp, fun D hD => ?_⟩
      · rw [h1]
        simp only [setC_queue, mem_clSyms' (acc := s.queue), List.mem_cons, exists_eq_or_imp, hg, true_and]
        tauto
      · rw [h4 D hD]
        have e : getC cfg { setC cfg s C 1 with queue := clSyms C (setC cfg s C 1).queue } D = if D = C then 1 else getC cfg s D :=
          (getC_of rfl D).trans (ht.getC_set hCm hD s 1)
        rw [e]
        simp only [List.filter_cons, hg, Bool.not_true, Bool.false_and]
        by_cases e : D = C
        · subst e
          simp only [List.mem_cons_self, hg, if_true, and_true]
          split
          · rfl
          · split
            · rename_i hx
              have := (List.mem_filter.1 (List.mem_of_mem_take hx)).2
              simp [hg] at this
            · rfl
        · simp [e]
    · rename_i hg
      have hg : C.goal = false := by simpa using hg
      have skip : ∀ {s' : St} {found' : Nat}, ((C :: Cs).filter fun C => !C.goal && decide (sineCommon cfg cls ≠ 0) && common cls (sineCommon cfg cls) C).take (sineMaxcommon cfg - found) =
            (Cs.filter fun C => !C.goal && decide (sineCommon cfg cls ≠ 0) && common cls (sineCommon cfg cls) C).take (sineMaxcommon cfg - found') →
          s' = s → ((∀ c, c ∈ (firstLoop cfg cls Cs s' found').1.queue ↔ c ∈ s.queue ∨ ∃ D ∈ C :: Cs, D.goal = true ∧ c ∈ clSyms D []) ∧
        (firstLoop cfg cls Cs s' found').1.ku = s.ku ∧ (firstLoop cfg cls Cs s' found').1.triggers = s.triggers ∧
        ∀ D ∈ cls, getC cfg (firstLoop cfg cls Cs s' found').1 D =
          if D ∈ C :: Cs ∧ D.goal = true then 1
          else if D ∈ ((C :: Cs).filter fun C => !C.goal && decide (sineCommon cfg cls ≠ 0) && common cls (sineCommon cfg cls) C).take (sineMaxcommon cfg - found) then 121
          else getC cfg s D) := by
        rintro s' found' e rfl
        obtain ⟨h1, h2, h3, h4⟩ := firstLoop_spec ht (Cs := Cs) (s := s') (found := found') hC'
        refine ⟨fun c => ?_, h2, h3, fun D hD => ?_⟩
        · rw [h1]
          simp [hg]
        · rw [h4 D hD, e]
          by_cases e : D = C
          · subst e; simp [hg]
          · simp [e]
      split
      · rename_i hn
        split
        · rename_i hc
          obtain ⟨h1, h2, h3, h4⟩ := firstLoop_spec ht (Cs := Cs) (s := setC cfg s C (maxk + 1)) (found := found + 1) hC'
          refine ⟨fun c => ?_, by rw [h2]; simp, by rw [h3]; simp, fun D hD => ?_⟩
          · rw [h1]
            simp [hg]
          · rw [h4 D hD, ht.getC_set hCm hD]
            have e1 : sineMaxcommon cfg - found = (sineMaxcommon cfg - (found + 1)) + 1 := by omega
            have e2 : ((C :: Cs).filter fun C => !C.goal && decide (sineCommon cfg cls ≠ 0) && common cls (sineCommon cfg cls) C) =
                C :: (Cs.filter fun C => !C.goal && decide (sineCommon cfg cls ≠ 0) && common cls (sineCommon cfg cls) C) := by
              rw [List.filter_cons_of_pos (by simp [hg, hn.1, hc])]
            rw [e1, e2, List.take_succ_cons]
            by_cases e : D = C
            · subst e
              simp [hg, maxk]
            · simp [e]
        · rename_i hc
          refine skip ?_ rfl
          rw [List.filter_cons_of_neg (by simp [hc])]
      · rename_i hn
        refine skip ?_ rfl
        by_cases hz : sineCommon cfg cls = 0
        · rw [List.filter_cons_of_neg (by simp [hz])]
        · have : sineMaxcommon cfg - found = 0 := by
            have : ¬ sineMaxcommon cfg > found := fun h => hn ⟨hz, h⟩
            omega
          simp [this]

theorem foldl_setU (ht : Tab cfg cls) : ∀ {cs : List Const} {s : St}, (∀ c ∈ cs, Sym cls c) →
    (cs.foldl (fun s c => setU cfg s c 1) s).kc = s.kc ∧ (cs.foldl (fun s c => setU cfg s c 1) s).queue = s.queue ∧
    (cs.foldl (fun s c => setU cfg s c 1) s).triggers = s.triggers ∧
    ∀ d, Sym cls d → getU cfg (cs.foldl (fun s c => setU cfg s c 1) s) d = if d ∈ cs then 1 else getU cfg s d
  | [], s, _ => by simp
  | c :: cs, s, h => by
    obtain ⟨h1, h2, h3, h4⟩ := foldl_setU ht (cs := cs) (s := setU cfg s c 1) fun c hc => h c (by simp [hc])
    simp only [List.foldl_cons]
    refine ⟨by rw [h1]; simp, by rw [h2]; simp, by rw [h3]; simp, fun d hd => ?_⟩
    rw [h4 d hd, ht.getU_set (h c (by simp)) hd]
    by_cases e : d = c
    · simp [e]
    · simp [e]

theorem start_spec (ht : Tab cfg cls) :
    (∀ c, c ∈ (start cfg cls).queue ↔ ∃ C ∈ cls, C.goal = true ∧ c ∈ clSyms C []) ∧ (start cfg cls).triggers = 0 ∧
    (∀ D ∈ cls, getC cfg (start cfg cls) D = if D.goal = true then 1 else if D ∈ commons cfg cls then 121 else 0) ∧
    ∀ c, Sym cls c → getU cfg (start cfg cls) c = if c ∈ (start cfg cls).queue then 1 else 0 := by
  obtain ⟨h1, h2, h3, h4⟩ := firstLoop_spec ht (Cs := cls) (s := ⟨fun _ => 0, fun _ => 0, 0, []⟩) (found := 0) fun _ => id
  have hs : ∀ c ∈ (firstLoop cfg cls cls ⟨fun _ => 0, fun _ => 0, 0, []⟩ 0).1.queue, Sym cls c := by
    intro c hc
    rcases (h1 c).1 hc with h | ⟨C, hC, _, hc⟩
    · cases h
    · exact ⟨C, hC, hc⟩
  obtain ⟨f1, f2, f3, f4⟩ := foldl_setU ht (s := (firstLoop cfg cls cls ⟨fun _ => 0, fun _ => 0, 0, []⟩ 0).1) hs
  refine ⟨fun c => ?_, by unfold start; exact f3.trans h3, fun D hD => ?_, fun c hc => ?_⟩
  · unfold start
    rw [f2, h1]
    simp
  · unfold start
    rw [getC_of f1, h4 D hD]
    have h0 : getC cfg ⟨fun _ => 0, fun _ => 0, 0, []⟩ D = 0 := by unfold getC; split <;> rfl
    simp only [hD, true_and, Nat.sub_zero, h0]
    rfl
  · unfold start
    rw [f4 c hc, f2, getU_of h2]
    have h0 : getU cfg ⟨fun _ => 0, fun _ => 0, 0, []⟩ c = 0 := by
      unfold getU; rw [if_neg (by have := ht.sy c hc; omega)]
    rw [h0]

theorem start_snd (ht : Tab cfg cls) : Snd cfg cls (· ∈ commons cfg cls) (start cfg cls) := by
  obtain ⟨h1, h2, h3, h4⟩ := start_spec ht
  have hs : ∀ c ∈ (start cfg cls).queue, Sym cls c := fun c hc => by
    obtain ⟨C, hC, _, hc⟩ := (h1 c).1 hc
    exact ⟨C, hC, hc⟩
  refine ⟨fun c hc => ?_, fun C hC => ?_, fun c hc => ⟨hs c hc, by rw [h4 c (hs c hc), if_pos hc]; omega⟩, fun C hC h => ?_⟩
  · rw [h4 c hc]
    split
    · rename_i hq
      obtain ⟨C, hC, hg, hi⟩ := (h1 c).1 hq
      exact fun _ => .goal hC hg hi
    · exact fun h => absurd rfl h
  · rw [h3 C hC]
    split
    · rename_i hg; exact fun _ => .inl (.inl hg)
    · split
      · rename_i hg; exact fun _ => .inr hg
      · exact fun h => absurd rfl h
  · rw [h3 C hC]
    split
    · omega
    · rename_i hg
      rw [if_pos (h.resolve_left hg)]; omega

theorem start_cmp (ht : Tab cfg cls) : Cmp cfg cls (fun _ _ => False) (start cfg cls) := by
  obtain ⟨h1, h2, h3, h4⟩ := start_spec ht
  refine ⟨fun C hC => ?_, fun c hc => ?_⟩
  · rw [h3 C hC]
    split
    · rename_i hg
      intro _ _ d hd
      rw [h4 d ⟨C, hC, hd⟩, if_pos ((h1 d).2 ⟨C, hC, hg, hd⟩)]
      omega
    · split <;> omega
  · rw [h4 c hc]
    split
    · rename_i hq; exact fun _ _ => .inl hq
    · exact fun h => absurd rfl h

/-! ### Triggers -/

theorem visit_max {k sc : Nat} : ∀ {Cs : List Cl} {s : St}, s.triggers < maxTriggers cfg cls.length → (visit cfg cls k sc Cs s).triggers ≤ maxTriggers cfg cls.length
  | [], s, h => by simp only [visit]; omega
  | C :: Cs, s, h => by
    unfold visit
    split
    · split
      · exact visit_max h
      · simp only
        split
        · simp only [setC_triggers]; omega
        · rename_i hm
          refine visit_max ?_
          rw [(pushSyms_kc _ _ _).2]
          exact not_le.1 hm
    · exact visit_max h

/-! ### Goals keep the number 1 -/

theorem visit_goal (ht : Tab cfg cls) {k sc : Nat} : ∀ {Cs : List Cl} {s : St}, (∀ C ∈ Cs, C ∈ cls) → (∀ D ∈ cls, D.goal = true → getC cfg s D = 1) →
    ∀ D ∈ cls, D.goal = true → getC cfg (visit cfg cls k sc Cs s) D = 1
  | [], s, _, h => by simpa [visit] using h
  | C :: Cs, s, hC, h => by
    have hC' : ∀ C ∈ Cs, C ∈ cls := fun C hx => hC C (List.mem_cons_of_mem _ hx)
    have hCm := hC C List.mem_cons_self
    unfold visit
    split
    · rename_i hif
      split
      · exact visit_goal ht hC' h
      · have h1 : ∀ D ∈ cls, D.goal = true → getC cfg { setC cfg s C (k + 1) with triggers := (setC cfg s C (k + 1)).triggers + 1 } D = 1 := by
          intro D hD hg
          refine ((getC_of rfl D).trans (ht.getC_set hCm hD s (k + 1))).trans ?_
          have := h D hD hg
          split
          · rename_i e; subst e; omega
          · exact this
        simp only
        split
        · exact h1
        · refine visit_goal ht hC' fun D hD hg => ?_
          rw [getC_of (pushSyms_kc _ _ _).1]
          exact h1 D hD hg
    · exact visit_goal ht hC' h

theorem loop_goal (ht : Tab cfg cls) : ∀ {f : Nat} {s s' : St}, loop cfg cls f s = some s' → (∀ D ∈ cls, D.goal = true → getC cfg s D = 1) → ∀ D ∈ cls, D.goal = true → getC cfg s' D = 1
  | 0, _, _, h, _ => by simp [loop] at h
  | f + 1, s, s', h, hs => by
    unfold loop at h
    split at h
    · cases h; exact hs
    · rename_i c q e
      split at h
      · cases h; exact hs
      · have hq : ∀ D ∈ cls, D.goal = true → getC cfg { s with queue := q } D = 1 := hs
        simp only at h
        split at h
        · exact loop_goal ht h hq
        · exact loop_goal ht h (visit_goal ht (fun C hC => (mem_occs.1 hC).1) hq)

theorem start_goal (ht : Tab cfg cls) : ∀ D ∈ cls, D.goal = true → getC cfg (start cfg cls) D = 1 := by
  intro D hD hg
  rw [(start_spec ht).2.2.1 D hD, if_pos hg]

/-! ### Symbols are handled in the order of their numbers -/

theorem countP_less {α : Type} {p q : α → Bool} : ∀ {l : List α}, (∀ a ∈ l, q a = true → p a = true) → (∃ a ∈ l, p a = true ∧ q a = false) → l.countP q + 1 ≤ l.countP p
  | [], _, h => by simp at h
  | a :: l, h, hx => by
    have hle : l.countP q ≤ l.countP p := List.countP_mono_left fun b hb => h b (List.mem_cons_of_mem _ hb)
    have ha := h a List.mem_cons_self
    obtain ⟨b, hb, h1, h2⟩ := hx
    simp only [List.countP_cons]
    rcases List.mem_cons.1 hb with rfl | hb
    · simp only [h1, h2, if_true]
      simp
      exact hle
    · have ih := countP_less (fun c hc => h c (List.mem_cons_of_mem _ hc)) ⟨b, hb, h1, h2⟩
      cases hq : q a with
      | true => simp only [ha hq, if_true]; omega
      | false => cases p a <;> simp <;> omega

/-- clauses that can still be triggered by symbols with number `k` -/
def pending (cfg : Cfg) (cls : List Cl) (k : Nat) (s : St) : Nat := cls.countP fun C => decide (getC cfg s C = 0 ∨ getC cfg s C > k + 1)

theorem pending_mono {k k' : Nat} (h : k ≤ k') (s : St) : pending cfg cls k' s ≤ pending cfg cls k s := by
  refine List.countP_mono_left fun C _ => ?_
  simp only [decide_eq_true_eq]
  omega

theorem pending_of {s s' : St} (h : s.kc = s'.kc) (k : Nat) : pending cfg cls k s = pending cfg cls k s' := by
  unfold pending
  congr 1
  funext C
  rw [getC_of h]

/-- numbers of symbols are at most `k + 1` and those waiting have `k` or `k + 1`, in this order -/
structure Bfs (cfg : Cfg) (cls : List Cl) (k : Nat) (s : St) : Prop where
  le : ∀ c, Sym cls c → getU cfg s c ≤ k + 1
  sy : ∀ c ∈ s.queue, Sym cls c ∧ getU cfg s c ≠ 0 ∧ k ≤ getU cfg s c
  sorted : s.queue.Pairwise fun c d => getU cfg s c ≤ getU cfg s d

theorem pushSyms_bfs (ht : Tab cfg cls) {k : Nat} : ∀ {cs : List Const} {s : St}, (∀ c ∈ cs, Sym cls c) → Bfs cfg cls k s → Bfs cfg cls k (pushSyms cfg k cs s)
  | [], s, _, h => by simpa [pushSyms] using h
  | c :: cs, s, hc, h => by
    have hc' : ∀ c ∈ cs, Sym cls c := fun c hx => hc c (List.mem_cons_of_mem _ hx)
    have hsc := hc c List.mem_cons_self
    unfold pushSyms
    split
    · rename_i hif
      have h0 : getU cfg s c = 0 := by have := h.le c hsc; omega
      have hnq : c ∉ s.queue := fun hq => (h.sy c hq).2.1 h0
      refine pushSyms_bfs ht hc' ?_
      have eu : ∀ d, Sym cls d → getU cfg { setU cfg s c (k + 1) with queue := (setU cfg s c (k + 1)).queue ++ [c] } d = if d = c then k + 1 else getU cfg s d :=
        fun d hd => (getU_of rfl d).trans (ht.getU_set hsc hd s (k + 1))
      have eq' : ∀ d ∈ s.queue, getU cfg { setU cfg s c (k + 1) with queue := (setU cfg s c (k + 1)).queue ++ [c] } d = getU cfg s d := fun d hd => by
        rw [eu d (h.sy d hd).1, if_neg]
        rintro rfl
        exact hnq hd
      refine ⟨fun d hd => ?_, fun d hd => ?_, ?_⟩
      · rw [eu d hd]
        split
        · omega
        · exact h.le d hd
      · have hd : d ∈ s.queue ++ [c] := by simpa using hd
        rcases List.mem_append.1 hd with hd | hd
        · rw [eq' d hd]; exact h.sy d hd
        · obtain rfl := List.mem_singleton.1 hd
          rw [eu d hsc, if_pos rfl]
          exact ⟨hsc, by omega, by omega⟩
      · simp only [setU_queue]
        refine List.pairwise_append.2 ⟨h.sorted.imp_of_mem fun {a b} ha hb hab => ?_, List.pairwise_singleton _ _, fun a ha b hb => ?_⟩
        · have e1 := eq' a ha
          have e2 := eq' b hb
          simp only [setU_queue] at e1 e2
          rw [e1, e2]; exact hab
        · obtain rfl := List.mem_singleton.1 hb
          have e1 := eq' a ha
          have e2 := eu b hsc
          simp only [setU_queue] at e1 e2
          rw [e1, e2]
          simp only [if_true]
          exact h.le a (h.sy a ha).1
    · exact pushSyms_bfs ht hc' h

theorem visit_bfs (ht : Tab cfg cls) {k sc : Nat} : ∀ {Cs : List Cl} {s : St}, (∀ C ∈ Cs, C ∈ cls) → Bfs cfg cls k s →
    Bfs cfg cls k (visit cfg cls k sc Cs s) ∧ (visit cfg cls k sc Cs s).triggers + pending cfg cls k (visit cfg cls k sc Cs s) ≤ s.triggers + pending cfg cls k s
  | [], s, _, h => by simpa [visit] using h
  | C :: Cs, s, hC, h => by
    have hC' : ∀ C ∈ Cs, C ∈ cls := fun C hx => hC C (List.mem_cons_of_mem _ hx)
    have hCm := hC C List.mem_cons_self
    unfold visit
    split
    · rename_i hif
      split
      · exact visit_bfs ht hC' h
      · have eu : ∀ c, getU cfg { setC cfg s C (k + 1) with triggers := (setC cfg s C (k + 1)).triggers + 1 } c = getU cfg s c :=
          fun c => getU_of (by simp) c
        have b1 : Bfs cfg cls k { setC cfg s C (k + 1) with triggers := (setC cfg s C (k + 1)).triggers + 1 } := by
          refine ⟨fun c hc => by rw [eu]; exact h.le c hc, fun c hc => by rw [eu]; exact h.sy c (by simpa using hc), ?_⟩
          have := h.sorted
          simp only [setC_queue]
          exact this.imp fun {a b} hab => by
            have e1 := eu a; have e2 := eu b
            simp only [setC_queue] at e1 e2
            rw [e1, e2]; exact hab
        have p1 : pending cfg cls k { setC cfg s C (k + 1) with triggers := (setC cfg s C (k + 1)).triggers + 1 } + 1 ≤ pending cfg cls k s := by
          have ec : ∀ D ∈ cls, getC cfg { setC cfg s C (k + 1) with triggers := (setC cfg s C (k + 1)).triggers + 1 } D = if D = C then k + 1 else getC cfg s D :=
            fun D hD => (getC_of rfl D).trans (ht.getC_set hCm hD s (k + 1))
          refine countP_less (fun D hD => ?_) ⟨C, hCm, ?_, ?_⟩
          · simp only [decide_eq_true_eq]
            rw [ec D hD]
            split
            · omega
            · exact id
          · simpa using hif
          · simp only [decide_eq_false_iff_not]
            rw [ec C hCm, if_pos rfl]
            omega
        simp only
        split
        · refine ⟨b1, ?_⟩
          dsimp only at p1 ⊢
          have t2 : (setC cfg s C (k + 1)).triggers = s.triggers := setC_triggers _ _ _
          omega
        · have hk := pushSyms_kc (cfg := cfg) k (clSyms C []) { setC cfg s C (k + 1) with triggers := (setC cfg s C (k + 1)).triggers + 1 }
          obtain ⟨g1, g2⟩ := visit_bfs ht (k := k) (sc := sc) hC' (pushSyms_bfs ht (fun c hc => ⟨C, hCm, hc⟩) b1)
          refine ⟨g1, g2.trans ?_⟩
          rw [hk.2, pending_of hk.1]
          dsimp only at p1 ⊢
          have t2 : (setC cfg s C (k + 1)).triggers = s.triggers := setC_triggers _ _ _
          omega
    · exact visit_bfs ht hC' h

theorem loop_bfs (ht : Tab cfg cls) {n : Nat} : ∀ {f : Nat} {s s' : St} {k : Nat}, loop cfg cls f s = some s' → Bfs cfg cls k s → s.triggers + pending cfg cls k s ≤ n → s'.triggers ≤ n
  | 0, _, _, _, h, _, _ => by simp [loop] at h
  | f + 1, s, s', k, h, hb, hn => by
    unfold loop at h
    split at h
    · cases h; omega
    · rename_i c q e
      split at h
      · cases h; omega
      · have hk := (hb.sy c (by rw [e]; simp)).2.2
        have hso := hb.sorted
        rw [e, List.pairwise_cons] at hso
        have hq : Bfs cfg cls (getU cfg s c) { s with queue := q } := by
          refine ⟨fun d hd => (hb.le d hd).trans (by omega), fun d hd => ?_, hso.2⟩
          obtain ⟨a, b, _⟩ := hb.sy d (by rw [e]; exact List.mem_cons_of_mem _ hd)
          exact ⟨a, b, hso.1 d hd⟩
        have hp : ({ s with queue := q } : St).triggers + pending cfg cls (getU cfg s c) { s with queue := q } ≤ n := by
          have h1 := pending_mono (cfg := cfg) (cls := cls) hk s
          have h2 : pending cfg cls (getU cfg s c) { s with queue := q } = pending cfg cls (getU cfg s c) s := pending_of rfl _
          rw [h2]
          show s.triggers + _ ≤ n
          omega
        simp only at h
        split at h
        · exact loop_bfs ht h hq hp
        · obtain ⟨g1, g2⟩ := visit_bfs ht (k := getU cfg s c) (sc := scount cls c) (fun C hC => (mem_occs.1 hC).1) hq
          exact loop_bfs ht h g1 (g2.trans hp)

/-- a clause is triggered at most once -/
theorem triggers_le (ht : Tab cfg cls) {f : Nat} {s : St} (h : loop cfg cls f (start cfg cls) = some s) : s.triggers ≤ cls.length := by
  obtain ⟨h1, h2, h3, h4⟩ := start_spec ht
  have hs : ∀ c ∈ (start cfg cls).queue, Sym cls c := fun c hc => by
    obtain ⟨C, hC, _, hc⟩ := (h1 c).1 hc
    exact ⟨C, hC, hc⟩
  refine loop_bfs ht (k := 1) h ⟨fun c hc => ?_, fun c hc => ?_, ?_⟩ ?_
  · rw [h4 c hc]; split <;> omega
  · rw [h4 c (hs c hc), if_pos hc]
    exact ⟨hs c hc, by omega, by omega⟩
  · refine List.pairwise_of_forall_mem_list fun a ha b hb => ?_
    rw [h4 a (hs a ha), h4 b (hs b hb), if_pos ha, if_pos hb]
  · rw [h2]
    have : pending cfg cls 1 (start cfg cls) ≤ cls.length := List.countP_le_length
    omega

/-! ### All together -/

/-- the reasons to use a clause -/
theorem kept_why (ht : Tab cfg cls) {f : Nat} {s : St} (h : loop cfg cls f (start cfg cls) = some s) {C : Cl} (hC : C ∈ cls) (hk : getC cfg s C ≠ 0) :
    Why cfg cls C ∨ C ∈ commons cfg cls := (loop_snd ht h (start_snd ht)).cl C hC hk

/-- clauses with a reason are used -/
theorem why_kept (ht : Tab cfg cls) {f : Nat} {s : St} (h : loop cfg cls f (start cfg cls) = some s) (hm : s.triggers < maxTriggers cfg cls.length) {C : Cl} (hC : C ∈ cls)
    (hw : Why cfg cls C ∨ C ∈ commons cfg cls) : getC cfg s C ≠ 0 := by
  have hs := loop_snd ht h (start_snd ht)
  obtain ⟨hc, hq⟩ := loop_cmp ht h hm (start_snd ht) (start_cmp ht)
  rcases hw with (hg | ⟨k, c, hn, hk, hin, hT⟩) | hw
  · exact hs.stay C hC (.inl hg)
  · have hg1 : ∀ C ∈ cls, C.goal = true → ∀ c ∈ clSyms C [], getU cfg s c ≠ 0 ∧ getU cfg s c ≤ 1 := by
      intro D hD hg d hd
      have h1 := loop_goal ht h (start_goal ht) D hD hg
      have := hc.cl D hD (by omega) (by omega) d hd
      omega
    obtain ⟨hsy, hle⟩ := near_le hc hq hg1 hn
    obtain ⟨a, b⟩ := hle hk
    rcases hc.sy c hsy a (by omega) with hx | hx
    · rw [hq] at hx; cases hx
    · exact (hx C hC hin hT).elim False.elim fun x => x.1
  · exact hs.stay C hC (.inr hw)

/-! ### How many clauses are used -/

theorem loop_max : ∀ {f : Nat} {s s' : St}, loop cfg cls f s = some s' → s.triggers ≤ maxTriggers cfg cls.length → s'.triggers ≤ maxTriggers cfg cls.length
  | 0, _, _, h, _ => by simp [loop] at h
  | f + 1, s, s', h, hm => by
    unfold loop at h
    split at h
    · cases h; exact hm
    · rename_i c q e
      split at h
      · cases h; exact hm
      · rename_i hlt
        simp only at h
        split at h
        · exact loop_max h hm
        · exact loop_max h (visit_max (s := { s with queue := q }) (not_le.1 hlt))

theorem countP_one {α : Type} {p q : α → Bool} {x : α} : ∀ {l : List α}, l.Nodup → (∀ a ∈ l, p a = true → a = x ∨ q a = true) → l.countP p ≤ l.countP q + 1
  | [], _, _ => by simp
  | a :: l, hn, h => by
    obtain ⟨h1, h2⟩ := List.nodup_cons.1 hn
    simp only [List.countP_cons]
    by_cases e : a = x
    · have : l.countP p ≤ l.countP q := List.countP_mono_left fun b hb hp => (h b (List.mem_cons_of_mem _ hb) hp).resolve_left fun e' => h1 (by rw [e, ← e']; exact hb)
      split <;> split <;> omega
    · have ih := countP_one h2 fun b hb => h b (List.mem_cons_of_mem _ hb)
      split
      · rename_i hp
        rw [if_pos ((h a List.mem_cons_self hp).resolve_left e)]
        omega
      · split <;> omega

/-- the clauses with a number -/
def numbered (cfg : Cfg) (cls : List Cl) (s : St) : Nat := cls.countP fun C => decide (getC cfg s C ≠ 0)

theorem visit_numbered (ht : Tab cfg cls) (hn : cls.Nodup) {k sc n : Nat} : ∀ {Cs : List Cl} {s : St}, (∀ C ∈ Cs, C ∈ cls) → numbered cfg cls s ≤ n + s.triggers →
    numbered cfg cls (visit cfg cls k sc Cs s) ≤ n + (visit cfg cls k sc Cs s).triggers
  | [], s, _, h => by simpa [visit] using h
  | C :: Cs, s, hC, h => by
    have hC' : ∀ C ∈ Cs, C ∈ cls := fun C hx => hC C (List.mem_cons_of_mem _ hx)
    have hCm := hC C List.mem_cons_self
    unfold visit
    split
    · split
      · exact visit_numbered ht hn hC' h
      · have h1 : numbered cfg cls { setC cfg s C (k + 1) with triggers := (setC cfg s C (k + 1)).triggers + 1 } ≤ numbered cfg cls s + 1 := by
          refine countP_one (x := C) hn fun D hD => ?_
          simp only [decide_eq_true_eq]
          have e : getC cfg { setC cfg s C (k + 1) with triggers := (setC cfg s C (k + 1)).triggers + 1 } D = if D = C then k + 1 else getC cfg s D :=
            (getC_of rfl D).trans (ht.getC_set hCm hD s (k + 1))
          rw [e]
          split
          · rename_i e; exact fun _ => .inl e
          · exact .inr
        have t2 : (setC cfg s C (k + 1)).triggers = s.triggers := setC_triggers _ _ _
        dsimp only at h1 ⊢
        split
        · dsimp only
          omega
        · refine visit_numbered ht hn hC' ?_
          have hk := pushSyms_kc (cfg := cfg) k (clSyms C []) { setC cfg s C (k + 1) with triggers := (setC cfg s C (k + 1)).triggers + 1 }
          dsimp only at hk
          have e : ∀ D, getC cfg (pushSyms cfg k (clSyms C []) { setC cfg s C (k + 1) with triggers := (setC cfg s C (k + 1)).triggers + 1 }) D =
              getC cfg { setC cfg s C (k + 1) with triggers := (setC cfg s C (k + 1)).triggers + 1 } D := fun D => getC_of hk.1 D
          rw [hk.2]
          unfold numbered at h1 h ⊢
          dsimp only at e
          simp only [e]
          omega
    · exact visit_numbered ht hn hC' h

theorem loop_numbered (ht : Tab cfg cls) (hn : cls.Nodup) {n : Nat} : ∀ {f : Nat} {s s' : St}, loop cfg cls f s = some s' → numbered cfg cls s ≤ n + s.triggers →
    numbered cfg cls s' ≤ n + s'.triggers
  | 0, _, _, h, _ => by simp [loop] at h
  | f + 1, s, s', h, hs => by
    unfold loop at h
    split at h
    · cases h; exact hs
    · rename_i c q e
      split at h
      · cases h; exact hs
      · have hq : numbered cfg cls { s with queue := q } ≤ n + ({ s with queue := q } : St).triggers := hs
        simp only at h
        split at h
        · exact loop_numbered ht hn h hq
        · exact loop_numbered ht hn h (visit_numbered ht hn (fun C hC => (mem_occs.1 hC).1) hq)

theorem numbered_le (ht : Tab cfg cls) (hn : cls.Nodup) {f : Nat} {s : St} (h : loop cfg cls f (start cfg cls) = some s) :
    numbered cfg cls s ≤ cls.countP (·.goal) + (commons cfg cls).length + maxTriggers cfg cls.length := by
  obtain ⟨_, h2, h3, _⟩ := start_spec ht
  have h0 : numbered cfg cls (start cfg cls) ≤ cls.countP (·.goal) + (commons cfg cls).length := by
    have e1 : numbered cfg cls (start cfg cls) ≤ cls.countP fun C => C.goal || decide (C ∈ commons cfg cls) := by
      refine List.countP_mono_left fun C hC => ?_
      simp only [decide_eq_true_eq, Bool.or_eq_true]
      rw [h3 C hC]
      split
      · rename_i hg; exact fun _ => .inl hg
      · split
        · rename_i hg; exact fun _ => .inr hg
        · exact fun h => absurd rfl h
    have e2 : ∀ l : List Cl, l.countP (fun C => C.goal || decide (C ∈ commons cfg cls)) ≤ l.countP (·.goal) + l.countP fun C => decide (C ∈ commons cfg cls) := by
      intro l
      induction l with
      | nil => simp
      | cons a l ih =>
        simp only [List.countP_cons]
        cases a.goal <;> cases decide (a ∈ commons cfg cls) <;> simp <;> omega
    have e3 : cls.countP (fun C => decide (C ∈ commons cfg cls)) ≤ (commons cfg cls).length := by
      rw [List.countP_eq_length_filter]
      exact (List.subperm_of_subset (hn.filter _) fun C hC => by simpa using (List.mem_filter.1 hC).2).length_le
    have := e2 cls
    omega
  have h1 := loop_numbered ht hn (n := cls.countP (·.goal) + (commons cfg cls).length) h (by omega)
  have h4 := loop_max h (by omega)
  omega

/-! ### Numbers are never taken away -/

theorem setC_stay {s : St} {C D : Cl} {k : Nat} (h : getC cfg s D ≠ 0) : getC cfg (setC cfg s C (k + 1)) D ≠ 0 := by
  have hD : ¬ D.id ≥ cfg.nb := fun hD => h (by unfold getC; rw [if_pos hD])
  unfold getC at h ⊢
  rw [if_neg hD] at h ⊢
  unfold setC
  split
  · exact h
  · dsimp only
    split
    · omega
    · exact h

theorem visit_stay {D : Cl} {k sc : Nat} : ∀ {Cs : List Cl} {s : St}, getC cfg s D ≠ 0 → getC cfg (visit cfg cls k sc Cs s) D ≠ 0
  | [], s, h => by simpa [visit] using h
  | C :: Cs, s, h => by
    unfold visit
    split
    · split
      · exact visit_stay h
      · simp only
        split
        · exact setC_stay h
        · refine visit_stay ?_
          rw [getC_of (pushSyms_kc _ _ _).1]
          exact setC_stay h
    · exact visit_stay h

theorem loop_stay {D : Cl} : ∀ {f : Nat} {s s' : St}, loop cfg cls f s = some s' → getC cfg s D ≠ 0 → getC cfg s' D ≠ 0
  | 0, _, _, h, _ => by simp [loop] at h
  | f + 1, s, s', h, hs => by
    unfold loop at h
    split at h
    · cases h; exact hs
    · rename_i c q e
      split at h
      · cases h; exact hs
      · have hq : getC cfg { s with queue := q } D ≠ 0 := hs
        simp only at h
        split at h
        · exact loop_stay h hq
        · exact loop_stay h (visit_stay hq)

theorem firstLoop_stay {D : Cl} : ∀ {Cs : List Cl} {s : St} {found : Nat}, getC cfg s D ≠ 0 → getC cfg (firstLoop cfg cls Cs s found).1 D ≠ 0
  | [], s, found, h => h
  | C :: Cs, s, found, h => by
    unfold firstLoop
    split
    · exact firstLoop_stay (s := { setC cfg s C 1 with queue := clSyms C (setC cfg s C 1).queue }) (setC_stay (k := 0) h)
    · split
      · split
        · exact firstLoop_stay (setC_stay h)
        · exact firstLoop_stay h
      · exact firstLoop_stay h

theorem firstLoop_goal {D : Cl} (hid : D.id < cfg.nb) (hg : D.goal = true) : ∀ {Cs : List Cl} {s : St} {found : Nat}, D ∈ Cs → getC cfg (firstLoop cfg cls Cs s found).1 D ≠ 0
  | [], s, found, h => by cases h
  | C :: Cs, s, found, h => by
    unfold firstLoop
    rcases List.mem_cons.1 h with rfl | h
    · rw [if_pos hg]
      refine firstLoop_stay ?_
      have : ¬ D.id ≥ cfg.nb := by omega
      simp [getC, setC, this]
    · split
      · exact firstLoop_goal hid hg h
      · split
        · split
          · exact firstLoop_goal hid hg h
          · exact firstLoop_goal hid hg h
        · exact firstLoop_goal hid hg h

theorem foldl_setU_kc : ∀ (cs : List Const) (s : St), (cs.foldl (fun s c => setU cfg s c 1) s).kc = s.kc
  | [], s => rfl
  | c :: cs, s => by rw [List.foldl_cons, foldl_setU_kc cs]; simp

theorem goal_stays {D : Cl} (hD : D ∈ cls) (hid : D.id < cfg.nb) (hg : D.goal = true) {f : Nat} {s : St} (h : loop cfg cls f (start cfg cls) = some s) : getC cfg s D ≠ 0 := by
  refine loop_stay h ?_
  unfold start
  rw [getC_of (foldl_setU_kc _ _)]
  exact firstLoop_goal hid hg hD

/-! ### Few clauses are near -/

/-- a symbol at distance up to `j` triggers the clause -/
def Reach (cls : List Cl) (O T : Const → Cl → Prop) (j : Nat) (C : Cl) : Prop := ∃ k c, k ≤ j ∧ k ≤ 120 ∧ Near cls O T k c ∧ O c C ∧ T c C

theorem stable_near {O T : Const → Cl → Prop} {j : Nat} (hs : ∀ C ∈ cls, Reach cls O T (j + 1) C → Reach cls O T j C) {k : Nat} {c : Const} (h : Near cls O T k c) :
    ∃ k' ≤ j + 1, Near cls O T k' c := by
  induction h with
  | goal h1 h2 h3 => exact ⟨1, by omega, .goal h1 h2 h3⟩
  | @step k c d C h1 h2 h3 h4 h5 h6 ih =>
    obtain ⟨k', hk', hn⟩ := ih
    have hmin : ∃ k'' ≤ j + 1, k'' ≤ 120 ∧ Near cls O T k'' c := by
      by_cases hl : k' ≤ 120
      · exact ⟨k', hk', hl, hn⟩
      · exact ⟨k, by omega, h2, h1⟩
    obtain ⟨k2, a1, a2, a3⟩ := hmin
    obtain ⟨k3, c3, b1, b2, b3, b4, b5⟩ := hs C h3 ⟨k2, c, a1, a2, a3, h4, h5⟩
    exact ⟨k3 + 1, by omega, .step b3 b2 h3 b4 b5 h6⟩

theorem few_near {O T : Const → Cl → Prop} {k : Nat} {c : Const} (h : Near cls O T k c) : ∃ k' ≤ cls.length + 1, Near cls O T k' c := by
  classical
  have key : ∀ j, (∃ i < j, ∀ C ∈ cls, Reach cls O T (i + 1) C → Reach cls O T i C) ∨ j ≤ cls.countP fun C => decide (Reach cls O T j C) := by
    intro j
    induction j with
    | zero => exact .inr (Nat.zero_le _)
    | succ j ih =>
      rcases ih with ⟨i, hi, hs⟩ | hc
      · exact .inl ⟨i, by omega, hs⟩
      · by_cases hs : ∀ C ∈ cls, Reach cls O T (j + 1) C → Reach cls O T j C
        · exact .inl ⟨j, by omega, hs⟩
        · right
          simp only [not_forall] at hs
          obtain ⟨C, hC, h1, h2⟩ := hs
          have := countP_less (p := fun C => decide (Reach cls O T (j + 1) C)) (q := fun C => decide (Reach cls O T j C)) (l := cls)
            (fun D _ => by
              simp only [decide_eq_true_eq]
              rintro ⟨k, c, a, b⟩
              exact ⟨k, c, by omega, b⟩) ⟨C, hC, by simpa using h1, by simpa using h2⟩
          omega
  rcases key (cls.length + 1) with ⟨i, hi, hs⟩ | hc
  · obtain ⟨k', h1, h2⟩ := stable_near hs h
    exact ⟨k', by omega, h2⟩
  · have : cls.countP (fun C => decide (Reach cls O T (cls.length + 1) C)) ≤ cls.length := List.countP_le_length
    omega

end Gkc.Sine
