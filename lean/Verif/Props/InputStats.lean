import Verif.InputStats
import Verif.Props.AutoGuide
/-
C75: what the strategy is made from is true of the clauses of the problem and of the shared database together.
-/
namespace Gkc.Props.Is
open Gkc.Is

/-! ### the specification: a clause is a list of literals -/

/-- the literals of a clause, a sign (true: negative) and an atom -/
def lits (c : Clause) : List (Bool × Atom) :=
  match c.body with
  | .fact a => [(false, a)]
  | .rule ls => ls

/-- no literal with this sign -/
def Without (sign : Bool) (c : Clause) : Prop := ∀ l ∈ lits c, l.1 ≠ sign

/-- an equation with this sign is among the literals -/
def HasEq (sign : Bool) (c : Clause) : Prop := ∃ a : Atom, a.eq = true ∧ (sign, a) ∈ lits c

/-- the clause is one equation, or the negation of one -/
def UnitEq (c : Clause) : Prop := ∃ l : Bool × Atom, lits c = [l] ∧ l.2.eq = true

/-- `n` is the number of clauses with a property -/
def Number (cs : List Clause) (P : Clause → Prop) (n : Nat) : Prop := ∃ ds : List Clause, ds.length = n ∧ List.Sublist ds cs ∧
  (∀ d ∈ ds, P d) ∧ ∀ es : List Clause, List.Sublist es cs → (∀ e ∈ es, P e) → es.length ≤ n

/-- the least value; it is not known if all are above 100000 -/
def Least (cs : List Clause) (v : Clause → Nat) (n : Nat) : Prop :=
  (∀ c ∈ cs, n ≤ v c) ∧ ((∃ c ∈ cs, v c ≤ 100000) → ∃ c ∈ cs, v c = n)

/-- the greatest value -/
def Most (cs : List Clause) (v : Clause → Nat) (n : Nat) : Prop := (∀ c ∈ cs, v c ≤ n) ∧ (cs ≠ [] → ∃ c ∈ cs, v c = n)

/-- all numbers are right -/
structure Right (cs : List Clause) (t : In) : Prop where
  clauses : t.clauses = cs.length
  rules : Number cs (fun c => ∃ ls, c.body = .rule ls) t.rules
  facts : Number cs (fun c => ∃ a, c.body = .fact a) t.facts
  answers : Number cs (fun c => ∃ l ∈ lits c, l.2.ans = true) t.answers
  ground : Number cs (fun c => c.vars = 0) t.ground
  units : Number cs (fun c => ∃ l, lits c = [l]) t.units
  horn : Number cs (fun c => ((lits c).filter fun l => l.1 = false).length ≤ 1) t.horn
  neg : Number cs (Without false) t.neg
  pos : Number cs (Without true) t.pos
  posEq : Number cs (HasEq false) t.posEq
  negEq : Number cs (HasEq true) t.negEq
  unitPosEq : Number cs (fun c => ∃ a : Atom, lits c = [(false, a)] ∧ a.eq = true) t.unitPosEq
  minLength : Least cs (fun c => (lits c).length) t.minLength
  maxLength : Most cs (fun c => (lits c).length) t.maxLength
  minDepth : Least cs (·.depth) t.minDepth
  maxDepth : Most cs (·.depth) t.maxDepth
  minSize : Least cs (·.size) t.minSize
  maxSize : Most cs (·.size) t.maxSize
  minVars : Least cs (·.vars) t.minVars
  maxVars : Most cs (·.vars) t.maxVars
  exts : Number cs (fun c => c.role = .extAxiom) t.exts
  axioms : Number cs (fun c => c.role = .ax ∨ c.role = .fromAxiom ∨ c.role = .other) t.axioms
  assumptions : Number cs (fun c => c.role = .assumption ∨ c.role = .fromAssumption) t.assumptions
  goals : Number cs (fun c => c.role = .goal ∨ c.role = .fromGoal ∨ c.role = .fromGoalAssumption) t.goals
  negGoals : Number cs (fun c => c.role = .goal ∧ Without false c) t.negGoals
  posGoals : Number cs (fun c => c.role = .goal ∧ Without true c) t.posGoals
  posunitGoals : Number cs (fun c => c.role = .goal ∧ ∃ a, lits c = [(false, a)]) t.posunitGoals

/-! ### the atoms of a clause -/

theorem fold_lit (ls : List (Bool × Atom)) : ∀ v : Local,
    (ls.foldl lit v).ruleflag = v.ruleflag ∧ (ls.foldl lit v).len = v.len ∧
    (ls.foldl lit v).anslit = v.anslit + ls.countP (·.2.ans) ∧ (ls.foldl lit v).neglit = v.neglit + ls.countP (·.1) ∧
    (ls.foldl lit v).poslit = v.poslit + ls.countP (!·.1) ∧ (ls.foldl lit v).poseq = v.poseq + ls.countP (fun l => !l.1 && l.2.eq) ∧
    (ls.foldl lit v).negeq = v.negeq + ls.countP (fun l => l.1 && l.2.eq) ∧
    (ls.foldl lit v).uniteq = v.uniteq + if v.len < 2 then ls.countP (fun l => !l.1 && l.2.eq) else 0 := by
  induction ls with
  | nil => intro v; simp
  | cons l ls ih =>
    intro v
    rw [List.foldl_cons]
    obtain ⟨h1, h2, h3, h4, h5, h6, h7, h8⟩ := ih (lit v l)
    rw [h1, h2, h3, h4, h5, h6, h7, h8]
    obtain ⟨s, ⟨e, a⟩⟩ := l
    simp only [List.countP_cons]
    by_cases hl : v.len < 2 <;> cases s <;> cases e <;> cases a <;> simp [lit, hl] <;> omega

/-- the local variables in terms of the literals -/
theorem atoms_ok (c : Clause) :
    (atoms c.body).len = (lits c).length ∧ (atoms c.body).anslit = (lits c).countP (·.2.ans) ∧
    (atoms c.body).neglit = (lits c).countP (·.1) ∧ (atoms c.body).poslit = (lits c).countP (!·.1) ∧
    (atoms c.body).poseq = (lits c).countP (fun l => !l.1 && l.2.eq) ∧ (atoms c.body).negeq = (lits c).countP (fun l => l.1 && l.2.eq) ∧
    (atoms c.body).uniteq = if (lits c).length < 2 then (lits c).countP (fun l => !l.1 && l.2.eq) else 0 := by
  unfold lits atoms
  split
  · next a ha =>
    obtain ⟨e, n⟩ := a
    cases e <;> cases n <;> simp [ha]
  · next ls hl =>
    rw [hl]
    obtain ⟨-, h2, h3, h4, h5, h6, h7, h8⟩ := fold_lit ls ⟨true, ls.length, 0, 0, 0, 0, 0, 0⟩
    simp only [] at h2 h3 h4 h5 h6 h7 h8 ⊢
    rw [h2, h3, h4, h5, h6, h7, h8]
    simp

theorem flag_ok (c : Clause) : (atoms c.body).ruleflag = true ↔ ∃ ls, c.body = .rule ls := by
  cases h : c.body with
  | fact a => simp [atoms]
  | rule ls =>
    have := (fold_lit ls ⟨true, ls.length, 0, 0, 0, 0, 0, 0⟩).1
    simp [atoms, this]

/-! ### counting -/

theorem fold_count (f : In → Nat) (p : Clause → Bool) (h : ∀ s c, f (analyze s c) = up (p c) (f s)) :
    ∀ (cs : List Clause) (s : In), f (cs.foldl analyze s) = f s + cs.countP p
  | [], _ => rfl
  | c :: cs, s => by
    rw [List.foldl_cons, fold_count f p h cs, h, List.countP_cons, up]
    split <;> omega

theorem number_iff (cs : List Clause) (P : Clause → Prop) (p : Clause → Bool) (hp : ∀ c, p c = true ↔ P c) :
    Number cs P (cs.countP p) := by
  refine ⟨cs.filter p, List.countP_eq_length_filter.symm, List.filter_sublist, fun d hd => (hp d).1 (List.mem_filter.1 hd).2, ?_⟩
  intro es hs he
  have h1 : es.countP p = es.length := List.countP_eq_length.2 fun e hm => (hp e).2 (he e hm)
  have h2 := hs.countP_le (p := p)
  omega

/-- the number is determined -/
theorem number_unique {cs : List Clause} {P : Clause → Prop} {m n : Nat} (hm : Number cs P m) (hn : Number cs P n) : m = n := by
  obtain ⟨ds, hd, hs, hp, hmax⟩ := hm
  obtain ⟨ds', hd', hs', hp', hmax'⟩ := hn
  have := hmax ds' hs' hp'
  have := hmax' ds hs hp
  omega

/-- a minimum that began with 100000 -/
def Lo (cs : List Clause) (v : Clause → Nat) (n : Nat) : Prop :=
  (∀ c ∈ cs, n ≤ v c) ∧ n ≤ 100000 ∧ (n = 100000 ∨ ∃ c ∈ cs, v c = n)

def Hi (cs : List Clause) (v : Clause → Nat) (n : Nat) : Prop := (∀ c ∈ cs, v c ≤ n) ∧ (n = 0 ∨ ∃ c ∈ cs, v c = n)

theorem Lo.least {cs : List Clause} {v : Clause → Nat} {n : Nat} (h : Lo cs v n) : Least cs v n := by
  refine ⟨h.1, fun ⟨c, hc, hv⟩ => ?_⟩
  rcases h.2.2 with h2 | h2
  · have := h.1 c hc
    exact ⟨c, hc, by omega⟩
  · exact h2

theorem Hi.most {cs : List Clause} {v : Clause → Nat} {n : Nat} (h : Hi cs v n) : Most cs v n := by
  refine ⟨h.1, fun hne => ?_⟩
  rcases h.2 with h2 | h2
  · obtain ⟨c, hc⟩ := List.exists_mem_of_ne_nil cs hne
    have := h.1 c hc
    exact ⟨c, hc, by omega⟩
  · exact h2

theorem Lo.append {cs ds : List Clause} {v : Clause → Nat} {m n : Nat} (h : Lo cs v m) (k : Lo ds v n) :
    Lo (cs ++ ds) v (if n < m then n else m) := by
  refine ⟨fun c hc => ?_, ?_, ?_⟩
  · rcases List.mem_append.1 hc with hc | hc
    · have := h.1 c hc
      split <;> omega
    · have := k.1 c hc
      split <;> omega
  · have := h.2.1
    have := k.2.1
    split <;> omega
  · split
    · rcases k.2.2 with k2 | ⟨c, hc, hv⟩
      · exact .inl k2
      · exact .inr ⟨c, List.mem_append_right _ hc, hv⟩
    · rcases h.2.2 with k2 | ⟨c, hc, hv⟩
      · exact .inl k2
      · exact .inr ⟨c, List.mem_append_left _ hc, hv⟩

theorem Hi.append {cs ds : List Clause} {v : Clause → Nat} {m n : Nat} (h : Hi cs v m) (k : Hi ds v n) :
    Hi (cs ++ ds) v (if n > m then n else m) := by
  refine ⟨fun c hc => ?_, ?_⟩
  · rcases List.mem_append.1 hc with hc | hc
    · have := h.1 c hc
      split <;> omega
    · have := k.1 c hc
      split <;> omega
  · split
    · rcases k.2 with k2 | ⟨c, hc, hv⟩
      · exact .inl k2
      · exact .inr ⟨c, List.mem_append_right _ hc, hv⟩
    · rcases h.2 with k2 | ⟨c, hc, hv⟩
      · exact .inl k2
      · exact .inr ⟨c, List.mem_append_left _ hc, hv⟩

theorem fold_lo (f : In → Nat) (v : Clause → Nat) (h : ∀ s c, f (analyze s c) = if v c < f s then v c else f s) :
    ∀ (cs ds : List Clause) (s : In), Lo ds v (f s) → Lo (ds ++ cs) v (f (cs.foldl analyze s))
  | [], ds, s, hs => by simpa using hs
  | c :: cs, ds, s, hs => by
    have hc : Lo (ds ++ [c]) v (f (analyze s c)) := by
      rw [h]
      refine ⟨fun d hd => ?_, ?_, ?_⟩
      · rcases List.mem_append.1 hd with hd | hd
        · have := hs.1 d hd
          split <;> omega
        · rw [List.mem_singleton.1 hd]
          split <;> omega
      · have := hs.2.1
        split <;> omega
      · split
        · exact .inr ⟨c, by simp, rfl⟩
        · rcases hs.2.2 with h2 | ⟨d, hd, hv⟩
          · exact .inl h2
          · exact .inr ⟨d, List.mem_append_left _ hd, hv⟩
    have := fold_lo f v h cs (ds ++ [c]) (analyze s c) hc
    rw [List.append_assoc] at this
    exact this

theorem fold_hi (f : In → Nat) (v : Clause → Nat) (h : ∀ s c, f (analyze s c) = if v c > f s then v c else f s) :
    ∀ (cs ds : List Clause) (s : In), Hi ds v (f s) → Hi (ds ++ cs) v (f (cs.foldl analyze s))
  | [], ds, s, hs => by simpa using hs
  | c :: cs, ds, s, hs => by
    have hc : Hi (ds ++ [c]) v (f (analyze s c)) := by
      rw [h]
      refine ⟨fun d hd => ?_, ?_⟩
      · rcases List.mem_append.1 hd with hd | hd
        · have := hs.1 d hd
          split <;> omega
        · rw [List.mem_singleton.1 hd]
          split <;> omega
      · split
        · exact .inr ⟨c, by simp, rfl⟩
        · rcases hs.2 with h2 | ⟨d, hd, hv⟩
          · exact .inl h2
          · exact .inr ⟨d, List.mem_append_left _ hd, hv⟩
    have := fold_hi f v h cs (ds ++ [c]) (analyze s c) hc
    rw [List.append_assoc] at this
    exact this

/-- what a counter is at the end, for the whole problem -/
theorem total {own : List Clause} {shared : Option (List Clause)} {t : In} (ht : problem own shared = some t) (f : In → Nat)
    (p : Clause → Bool) (P : Clause → Prop) (h : ∀ s c, f (analyze s c) = up (p c) (f s)) (h0 : f start = 0)
    (hsum : ∀ s k t, sum s (some k) = some t → f t = f s + f k) (hp : ∀ c, p c = true ↔ P c) :
    Number (own ++ shared.getD []) P (f t) := by
  have e : f t = (own ++ shared.getD []).countP p := by
    cases shared with
    | none =>
      obtain rfl : analyzeAll own = t := by simpa [problem, sum] using ht
      rw [analyzeAll, fold_count f p h, h0]
      simp
    | some sh =>
      rw [hsum _ _ _ ht, analyzeAll, fold_count f p h, analyzeAll, fold_count f p h, h0]
      simp
  rw [e]
  exact number_iff _ P p hp

theorem least {own : List Clause} {shared : Option (List Clause)} {t : In} (ht : problem own shared = some t) (f : In → Nat)
    (v : Clause → Nat) (h : ∀ s c, f (analyze s c) = if v c < f s then v c else f s) (h0 : f start = 100000)
    (hsum : ∀ s k t, sum s (some k) = some t → f t = if f k < f s then f k else f s) :
    Least (own ++ shared.getD []) v (f t) := by
  have base : Lo [] v (f start) := ⟨by simp, by omega, .inl h0⟩
  have all : ∀ cs, Lo cs v (f (analyzeAll cs)) := fun cs => by simpa [analyzeAll] using fold_lo f v h cs [] start base
  cases shared with
  | none =>
    obtain rfl : analyzeAll own = t := by simpa [problem, sum] using ht
    simpa using (all own).least
  | some sh =>
    rw [hsum _ _ _ ht]
    exact ((all own).append (all sh)).least

theorem most {own : List Clause} {shared : Option (List Clause)} {t : In} (ht : problem own shared = some t) (f : In → Nat)
    (v : Clause → Nat) (h : ∀ s c, f (analyze s c) = if v c > f s then v c else f s) (h0 : f start = 0)
    (hsum : ∀ s k t, sum s (some k) = some t → f t = if f k > f s then f k else f s) :
    Most (own ++ shared.getD []) v (f t) := by
  have base : Hi [] v (f start) := ⟨by simp, .inl h0⟩
  have all : ∀ cs, Hi cs v (f (analyzeAll cs)) := fun cs => by simpa [analyzeAll] using fold_hi f v h cs [] start base
  cases shared with
  | none =>
    obtain rfl : analyzeAll own = t := by simpa [problem, sum] using ht
    simpa using (all own).most
  | some sh =>
    rw [hsum _ _ _ ht]
    exact ((all own).append (all sh)).most

/-- how a counter of the sum is computed, for each of the counters -/
macro "summed" : tactic => `(tactic| (intro s k t h; rw [sum] at h; split at h; · cases h
                                      · cases h; rfl))

theorem pos_none (ls : List (Bool × Atom)) (p : Bool × Atom → Bool) : (ls.countP p == 0) = true ↔ ∀ l ∈ ls, ¬ p l = true := by
  simp [List.countP_eq_zero]

theorem pos_some (ls : List (Bool × Atom)) (p : Bool × Atom → Bool) : (ls.countP p != 0) = true ↔ ∃ l ∈ ls, p l = true := by
  rw [bne_iff_ne, ← Nat.pos_iff_ne_zero, List.countP_pos_iff]

theorem len_one (ls : List (Bool × Atom)) : (ls.length == 1) = true ↔ ∃ l, ls = [l] := by
  rw [beq_iff_eq, List.length_eq_one_iff]

/-- C75: all numbers are right for the clauses of the file and of the shared database together -/
theorem C75_right_partial {own : List Clause} {shared : Option (List Clause)} {t : In} (ht : problem own shared = some t) :
    Right (own ++ shared.getD []) t where
  clauses := by
    obtain ⟨ds, hl, hs, -, hmax⟩ := total ht (·.clauses) (fun _ => true) (fun _ => True) (fun _ _ => rfl) rfl (by summed) (by simp)
    have h1 := hmax _ (List.Sublist.refl _) (by simp)
    have h2 := hs.length_le
    omega
  rules := total ht (·.rules) (fun c => (atoms c.body).ruleflag) _ (fun _ _ => rfl) rfl (by summed) flag_ok
  facts := total ht (·.facts) (fun c => !(atoms c.body).ruleflag) _ (fun _ _ => rfl) rfl (by summed) fun c => by
    have := flag_ok c
    cases h : c.body with
    | fact a => simp [atoms]
    | rule ls => rw [h] at this; simp [this.2 ⟨ls, rfl⟩]
  answers := total ht (·.answers) (fun c => (atoms c.body).anslit != 0) _ (fun _ _ => rfl) rfl (by summed) fun c => by
    rw [(atoms_ok c).2.1]; exact pos_some _ _
  ground := total ht (·.ground) (fun c => c.vars == 0) _ (fun _ _ => rfl) rfl (by summed) fun c => beq_iff_eq
  units := total ht (·.units) (fun c => (atoms c.body).len == 1) _ (fun _ _ => rfl) rfl (by summed) fun c => by
    rw [(atoms_ok c).1]; exact len_one _
  horn := total ht (·.horn) (fun c => decide ((atoms c.body).poslit ≤ 1)) _ (fun _ _ => rfl) rfl (by summed) fun c => by
    rw [(atoms_ok c).2.2.2.1, List.countP_eq_length_filter, decide_eq_true_iff]
    simp
  neg := total ht (·.neg) (fun c => (atoms c.body).poslit == 0) _ (fun _ _ => rfl) rfl (by summed) fun c => by
    rw [(atoms_ok c).2.2.2.1, pos_none]; simp [Without]
  pos := total ht (·.pos) (fun c => (atoms c.body).neglit == 0) _ (fun _ _ => rfl) rfl (by summed) fun c => by
    rw [(atoms_ok c).2.2.1, pos_none]; simp [Without]
  posEq := total ht (·.posEq) (fun c => (atoms c.body).poseq != 0) _ (fun _ _ => rfl) rfl (by summed) fun c => by
    rw [(atoms_ok c).2.2.2.2.1, pos_some]; simp [HasEq, and_comm]
  negEq := total ht (·.negEq) (fun c => (atoms c.body).negeq != 0) _ (fun _ _ => rfl) rfl (by summed) fun c => by
    rw [(atoms_ok c).2.2.2.2.2.1, pos_some]; simp [HasEq, and_comm]
  unitPosEq := total ht (·.unitPosEq) (fun c => (atoms c.body).uniteq != 0) _ (fun _ _ => rfl) rfl (by summed) fun c => by
    rw [(atoms_ok c).2.2.2.2.2.2]
    match lits c with
    | [] => simp
    | [(b, a)] => cases b <;> simp
    | _ :: _ :: ls => rw [if_neg (by simp only [List.length_cons]; omega)]; simp
  minLength := least ht (·.minLength) _ (fun s c => by simp only [analyze, (atoms_ok c).1]) rfl (by summed)
  maxLength := most ht (·.maxLength) _ (fun s c => by simp only [analyze, (atoms_ok c).1]) rfl (by summed)
  minDepth := least ht (·.minDepth) _ (fun _ _ => rfl) rfl (by summed)
  maxDepth := most ht (·.maxDepth) _ (fun _ _ => rfl) rfl (by summed)
  minSize := least ht (·.minSize) _ (fun _ _ => rfl) rfl (by summed)
  maxSize := most ht (·.maxSize) _ (fun _ _ => rfl) rfl (by summed)
  minVars := least ht (·.minVars) _ (fun _ _ => rfl) rfl (by summed)
  maxVars := most ht (·.maxVars) _ (fun _ _ => rfl) rfl (by summed)
  exts := total ht (·.exts) (fun c => c.role == .extAxiom) _ (fun _ _ => rfl) rfl (by summed) fun c => beq_iff_eq
  axioms := total ht (·.axioms) (fun c => c.role == .ax || c.role == .fromAxiom || c.role == .other) _ (fun _ _ => rfl) rfl (by summed)
    fun c => by simp [or_assoc]
  assumptions := total ht (·.assumptions) (fun c => c.role == .assumption || c.role == .fromAssumption) _ (fun _ _ => rfl) rfl (by summed)
    fun c => by simp
  goals := total ht (·.goals) (fun c => c.role == .goal || c.role == .fromGoalAssumption || c.role == .fromGoal) _ (fun _ _ => rfl) rfl
    (by summed) fun c => by cases c.role <;> simp
  negGoals := total ht (·.negGoals) (fun c => c.role == .goal && (atoms c.body).poslit == 0) _ (fun _ _ => rfl) rfl (by summed) fun c => by
    rw [Bool.and_eq_true, (atoms_ok c).2.2.2.1, pos_none]; simp [Without]
  posGoals := total ht (·.posGoals) (fun c => c.role == .goal && (atoms c.body).neglit == 0) _ (fun _ _ => rfl) rfl (by summed) fun c => by
    rw [Bool.and_eq_true, (atoms_ok c).2.2.1, pos_none]; simp [Without]
  posunitGoals := total ht (·.posunitGoals) (fun c => c.role == .goal && (atoms c.body).neglit == 0 && (atoms c.body).len == 1) _
    (fun _ _ => rfl) rfl (by summed) fun c => by
      rw [Bool.and_eq_true, Bool.and_eq_true, (atoms_ok c).2.2.1, (atoms_ok c).1, pos_none, len_one]
      match lits c with
      | [] => simp
      | [(b, a)] => cases b <;> simp
      | _ :: _ :: _ => simp

theorem number_zero {cs : List Clause} {P : Clause → Prop} {n : Nat} (h : Number cs P n) : n = 0 ↔ ∀ c ∈ cs, ¬ P c := by
  obtain ⟨ds, hd, hs, hp, hmax⟩ := h
  constructor
  · intro h0 c hc hP
    have := hmax [c] (List.singleton_sublist.2 hc) (by simpa using hP)
    simp at this
    omega
  · intro hn
    match ds with
    | [] => exact hd.symm
    | d :: _ => exact absurd (hp d (by simp)) (hn d (hs.subset (by simp)))

theorem number_all {cs : List Clause} {P : Clause → Prop} {n : Nat} (h : Number cs P n) : n = cs.length ↔ ∀ c ∈ cs, P c := by
  obtain ⟨ds, hd, hs, hp, hmax⟩ := h
  constructor
  · intro h0 c hc
    rw [hs.eq_of_length (by omega)] at hp
    exact hp c hc
  · intro ha
    have := hmax cs (List.Sublist.refl _) ha
    have := hs.length_le
    omega

/-- C75: the rules for equality are switched off (C74) just if no clause of the file or of the shared database has an equation -/
theorem C75_equality_partial {own : List Clause} {shared : Option (List Clause)} {t : In} (ht : problem own shared = some t) :
    (toStats own t).eq = true ↔ ∃ c ∈ own ++ shared.getD [], ∃ l ∈ lits c, l.2.eq = true := by
  have r := C75_right_partial ht
  have hp := number_zero r.posEq
  have hn := number_zero r.negEq
  have he : (toStats own t).eq = true ↔ ¬ ((∀ c ∈ own ++ shared.getD [], ¬ HasEq false c) ∧ ∀ c ∈ own ++ shared.getD [], ¬ HasEq true c) := by
    rw [← hp, ← hn, ← Nat.add_eq_zero_iff]
    exact decide_eq_true_iff
  rw [he]
  constructor
  · intro h
    refine Classical.byContradiction fun hc => h ⟨?_, ?_⟩
    · rintro c hm ⟨a, ha, hl⟩
      exact hc ⟨c, hm, _, hl, ha⟩
    · rintro c hm ⟨a, ha, hl⟩
      exact hc ⟨c, hm, _, hl, ha⟩
  · rintro ⟨c, hm, ⟨s, a⟩, hl, ha⟩ ⟨h1, h2⟩
    cases s
    · exact h1 c hm ⟨a, ha, hl⟩
    · exact h2 c hm ⟨a, ha, hl⟩

/-- the counts for clauses of one literal -/
theorem count_unit (cs : List Clause) (h : ∀ c ∈ cs, ∃ l, lits c = [l]) :
    cs.countP (fun c => (atoms c.body).poseq != 0) + cs.countP (fun c => (atoms c.body).negeq != 0) =
      cs.countP (fun c => (lits c).any (·.2.eq)) := by
  induction cs with
  | nil => rfl
  | cons c cs ih =>
    have ih := ih fun d hd => h d (List.mem_cons_of_mem _ hd)
    obtain ⟨⟨s, a⟩, hl⟩ := h c List.mem_cons_self
    simp only [List.countP_cons, (atoms_ok c).2.2.2.2.1, (atoms_ok c).2.2.2.2.2.1, hl]
    cases s <;> cases ha : a.eq <;> simp [ha] <;> omega

/-- C75: the problem is taken for one of unit equations alone just if each clause, also of the shared database, is an equation or the
    negation of one -/
theorem C75_unit_equality_partial {own : List Clause} {shared : Option (List Clause)} {t : In} (ht : problem own shared = some t) :
    (toStats own t).ueq = true ↔ ∀ c ∈ own ++ shared.getD [], UnitEq c := by
  have r := C75_right_partial ht
  have hu := number_all r.units
  have hP : t.posEq = (own ++ shared.getD []).countP (fun c => (atoms c.body).poseq != 0) :=
    number_unique r.posEq (number_iff _ _ _ fun c => by rw [(atoms_ok c).2.2.2.2.1, pos_some]; simp [HasEq, and_comm])
  have hN : t.negEq = (own ++ shared.getD []).countP (fun c => (atoms c.body).negeq != 0) :=
    number_unique r.negEq (number_iff _ _ _ fun c => by rw [(atoms_ok c).2.2.2.2.2.1, pos_some]; simp [HasEq, and_comm])
  simp only [Ag.Stats.ueq, toStats, decide_eq_true_iff, r.clauses]
  constructor
  · rintro ⟨h1, h2⟩ c hc
    have hall := hu.1 h1.symm
    rw [hP, hN, count_unit _ hall] at h2
    obtain ⟨l, hl⟩ := hall c hc
    have := List.countP_eq_length.1 h2.symm c hc
    exact ⟨l, hl, by simpa [hl] using this⟩
  · intro h
    have hall : ∀ c ∈ own ++ shared.getD [], ∃ l, lits c = [l] := fun c hc => ⟨_, (h c hc).choose_spec.1⟩
    refine ⟨(hu.2 hall).symm, ?_⟩
    rw [hP, hN, count_unit _ hall]
    exact (List.countP_eq_length.2 fun c hc => by
      obtain ⟨l, hl, he⟩ := h c hc
      simp [hl, he]).symm

/-- C75: the other parameters of the strategy (C74) in terms of the clauses: `g` goals, `a` assumptions, `x` axioms, `n` goals that are
    negative and `u` that are a positive literal, in the file and in the shared database -/
theorem C75_parameters_partial {own : List Clause} {shared : Option (List Clause)} {t : In} (ht : problem own shared = some t) {g a x n u : Nat}
    (hg : Number (own ++ shared.getD []) (fun c => c.role = .goal ∨ c.role = .fromGoal ∨ c.role = .fromGoalAssumption) g)
    (ha : Number (own ++ shared.getD []) (fun c => c.role = .assumption ∨ c.role = .fromAssumption) a)
    (hx : Number (own ++ shared.getD []) (fun c => c.role = .ax ∨ c.role = .fromAxiom ∨ c.role = .other) x)
    (hn : Number (own ++ shared.getD []) (fun c => c.role = .goal ∧ Without false c) n)
    (hu : Number (own ++ shared.getD []) (fun c => c.role = .goal ∧ ∃ b, lits c = [(false, b)]) u) :
    ((toStats own t).qp1 = true ↔ g * 3 ≤ own.length * 2) ∧
    ((toStats own t).qp2 = true ↔ (x ≠ 0 ∨ g ≠ 1 ∧ u ≠ 0) ∧ (g + a) * 3 ≤ own.length * 2) ∧
    ((toStats own t).qp3 = true ↔ a ≠ 0 ∨ g ≠ 1 ∧ g ≠ n) ∧
    ((toStats own t).sine = true ↔ 50 < (own ++ shared.getD []).length) := by
  have r := C75_right_partial ht
  have ho : (analyzeAll own).clauses = own.length := by simpa using (C75_right_partial (own := own) (shared := none) rfl).clauses
  obtain rfl := number_unique hg r.goals
  obtain rfl := number_unique ha r.assumptions
  obtain rfl := number_unique hx r.axioms
  obtain rfl := number_unique hn r.negGoals
  obtain rfl := number_unique hu r.posunitGoals
  have hc := r.clauses
  rw [← ho, ← hc]
  refine ⟨decide_eq_true_iff.trans ?_, decide_eq_true_iff.trans ?_, decide_eq_true_iff.trans ?_, decide_eq_true_iff.trans ?_⟩
  all_goals first | (simp only [toStats]; omega) | simp only [toStats, gt_iff_lt]

/-- C75: there is an answer unless there are no clauses at all and a shared database is used; then there is a division by zero -/
theorem C75_defined (own : List Clause) (shared : Option (List Clause)) :
    problem own shared = none ↔ own = [] ∧ shared = some [] := by
  have hc : ∀ cs, (analyzeAll cs).clauses = cs.length := fun cs => by
    rw [analyzeAll, fold_count (·.clauses) (fun _ => true) (fun _ _ => rfl)]
    simp [start]
  cases shared with
  | none => simp [problem, sum]
  | some sh =>
    simp only [problem, Option.map_some, sum, hc]
    split
    · next h => simp; exact ⟨List.length_eq_zero_iff.1 (by omega), List.length_eq_zero_iff.1 (by omega)⟩
    · next h =>
      simp only [reduceCtorEq, false_iff, Option.some.injEq]
      rintro ⟨rfl, rfl⟩
      exact h rfl

/-- C75, false: with an empty file and an empty shared database the numbers are divided by zero -/
theorem C75_no_clauses : problem [] (some []) = none := rfl

/-- C75, false: the least length is not found if all clauses have more than 100000 literals -/
theorem C75_too_long (c : Clause) (h : 100000 < (lits c).length) :
    ∃ t, problem [c] none = some t ∧ t.minLength ≠ (lits c).length := by
  refine ⟨_, rfl, ?_⟩
  simp only [analyzeAll, List.foldl_cons, List.foldl_nil, analyze, start, (atoms_ok c).1]
  rw [if_neg (by omega)]
  omega

/-! ### the measures of a clause -/

mutual
/-- the number of symbols and variables -/
def leaves : Term → Nat
  | .const _ => 1
  | .var _ => 1
  | .app ts => leavesAll ts
def leavesAll : List Term → Nat
  | [] => 0
  | t :: ts => leaves t + leavesAll ts
end

mutual
/-- the depth to which records are nested -/
def height : Term → Nat
  | .const _ => 0
  | .var _ => 0
  | .app ts => heightAll ts + 1
def heightAll : List Term → Nat
  | [] => 0
  | t :: ts => max (height t) (heightAll ts)
end

/-- a variable is in a term -/
inductive Occurs (n : Nat) : Term → Prop
  | var : Occurs n (.var n)
  | app (ts : List Term) (t : Term) : t ∈ ts → Occurs n t → Occurs n (.app ts)

mutual
theorem walk_ok (d : Nat) : ∀ (t : Term) (w : Walk), d ≤ w.maxdepth → w.seen.Nodup →
    (walk d t w).size = w.size + leaves t ∧ (walk d t w).maxdepth = max w.maxdepth (d + height t) ∧ (walk d t w).seen.Nodup ∧
      ∀ n, n ∈ (walk d t w).seen ↔ n ∈ w.seen ∨ Occurs n t
  | .const k, w, hd, hs => by
    refine ⟨rfl, ?_, hs, fun n => ⟨.inl, fun h => h.elim id fun h => nomatch h⟩⟩
    simp only [walk, height]; omega
  | .var k, w, hd, hs => by
    refine ⟨rfl, ?_, ?_, fun n => ?_⟩
    · simp only [walk, height]; omega
    · simp only [walk]
      split
      · exact hs
      · next hk =>
        rw [List.nodup_append]
        exact ⟨hs, by simp, fun a ha b hb hab => hk (by rw [← List.mem_singleton.1 hb, ← hab]; exact ha)⟩
    · have ho : Occurs n (.var k) ↔ n = k := ⟨fun h => by cases h; rfl, fun h => h ▸ .var⟩
      rw [ho]
      simp only [walk]
      split
      · next hk => exact ⟨.inl, fun h => h.elim id fun h => h ▸ hk⟩
      · simp
  | .app ts, w, hd, hs => by
    have hw : (if d + 1 > w.maxdepth then d + 1 else w.maxdepth) = max w.maxdepth (d + 1) := by split <;> omega
    obtain ⟨h1, h2, h3, h4⟩ := walkAll_ok (d + 1) ts { w with maxdepth := if d + 1 > w.maxdepth then d + 1 else w.maxdepth }
      (by simp only [hw]; omega) hs
    refine ⟨h1, ?_, h3, fun n => (h4 n).trans ?_⟩
    · rw [walk, h2, height]; simp only [hw]; omega
    · have ho : Occurs n (.app ts) ↔ ∃ t ∈ ts, Occurs n t := ⟨fun h => by cases h with | app _ t ht ho => exact ⟨t, ht, ho⟩, fun ⟨t, ht, ho⟩ => .app _ t ht ho⟩
      rw [ho]
theorem walkAll_ok (d : Nat) : ∀ (ts : List Term) (w : Walk), d ≤ w.maxdepth → w.seen.Nodup →
    (walkAll d ts w).size = w.size + leavesAll ts ∧ (walkAll d ts w).maxdepth = max w.maxdepth (d + heightAll ts) ∧
      (walkAll d ts w).seen.Nodup ∧ ∀ n, n ∈ (walkAll d ts w).seen ↔ n ∈ w.seen ∨ ∃ t ∈ ts, Occurs n t
  | [], w, hd, hs => by
    refine ⟨rfl, ?_, hs, fun n => by simp [walkAll]⟩
    simp only [walkAll, heightAll]; omega
  | t :: ts, w, hd, hs => by
    obtain ⟨g1, g2, g3, g4⟩ := walk_ok d t w hd hs
    obtain ⟨h1, h2, h3, h4⟩ := walkAll_ok d ts (walk d t w) (by omega) g3
    refine ⟨?_, ?_, h3, fun n => ?_⟩
    · rw [walkAll, h1, g1, leavesAll]; omega
    · rw [walkAll, h2, g2, heightAll]; omega
    · rw [walkAll, h4, g4]
      simp only [List.mem_cons, exists_eq_or_imp, or_assoc]
end

theorem fold_walk : ∀ (ts : List Term) (w : Walk), ts.foldl (fun w t => walk 0 t w) w = walkAll 0 ts w
  | [], _ => rfl
  | t :: ts, w => fold_walk ts (walk 0 t w)

/-- the atoms of a stored clause -/
def terms : Stored → List Term
  | .fact _ t => [t]
  | .rule ls => ls.map (·.2.2)

/-- C75: the size of a clause is the number of its symbols and variables, its depth the deepest nesting in one of its atoms, and its
    number of variables the number of different variables in all of them -/
theorem C75_measures (c : Stored) (role : Role) :
    (c.clause role).size = ((terms c).map leaves).sum ∧
    (∀ t ∈ terms c, height t ≤ (c.clause role).depth) ∧ ((c.clause role).depth = 0 ∨ ∃ t ∈ terms c, height t = (c.clause role).depth) ∧
    ∃ vs : List Nat, vs.Nodup ∧ (∀ n, n ∈ vs ↔ ∃ t ∈ terms c, Occurs n t) ∧ (c.clause role).vars = vs.length := by
  have hw : c.walked = walkAll 0 (terms c) ⟨0, 0, []⟩ := by
    cases c with
    | fact a t => rfl
    | rule ls => exact fold_walk _ _
  obtain ⟨h1, h2, h3, h4⟩ := walkAll_ok 0 (terms c) ⟨0, 0, []⟩ (Nat.le_refl _) List.nodup_nil
  rw [← hw] at h1 h2 h3 h4
  have hl : ∀ ts : List Term, leavesAll ts = (ts.map leaves).sum := by
    intro ts
    induction ts with
    | nil => rfl
    | cons t ts ih => rw [leavesAll, ih, List.map_cons, List.sum_cons]
  have hh : ∀ ts : List Term, (∀ t ∈ ts, height t ≤ heightAll ts) ∧ (heightAll ts = 0 ∨ ∃ t ∈ ts, height t = heightAll ts) := by
    intro ts
    induction ts with
    | nil => exact ⟨by simp, .inl rfl⟩
    | cons t ts ih =>
      constructor
      · intro x hx
        rw [heightAll]
        rcases List.mem_cons.1 hx with rfl | hx
        · omega
        · have := ih.1 x hx; omega
      · rw [heightAll]
        by_cases hlt : height t ≤ heightAll ts
        · rw [Nat.max_eq_right hlt]
          rcases ih.2 with h | ⟨x, hx, h⟩
          · exact .inl h
          · exact .inr ⟨x, List.mem_cons_of_mem _ hx, h⟩
        · exact .inr ⟨t, List.mem_cons_self, by omega⟩
  have hd : (c.clause role).depth = heightAll (terms c) := by
    show c.walked.maxdepth = _
    rw [h2]; simp
  refine ⟨?_, ?_, ?_, c.walked.seen, h3, fun n => by simpa using h4 n, rfl⟩
  · show c.walked.size = _
    rw [h1, hl]; simp
  · rw [hd]; exact (hh _).1
  · rw [hd]; exact (hh _).2

/-! ### examples -/

/-- a = b; not a = c or p; p -/
def own : List Clause :=
  [⟨.fact ⟨true, false⟩, .ax, 0, 3, 1⟩, ⟨.rule [(true, ⟨true, false⟩), (false, ⟨false, false⟩)], .goal, 1, 4, 1⟩,
   ⟨.fact ⟨false, false⟩, .extAxiom, 0, 1, 0⟩]

/-- not b = c -/
def kb : List Clause := [⟨.rule [(true, ⟨true, false⟩)], .goal, 2, 3, 2⟩]

def both : In := (problem own (some kb)).getD start

example : problem own (some kb) = some both := by decide
example : Right (own ++ kb) both := C75_right_partial (shared := some kb) (by decide)
example : both.clauses = 4 ∧ both.units = 3 ∧ both.posEq = 1 ∧ both.negEq = 2 ∧ both.goals = 2 ∧ both.negGoals = 1 ∧ both.maxLength = 2 ∧
    both.maxVars = 2 ∧ both.minDepth = 0 := by decide
example : (toStats own both).eq = true := (C75_equality_partial (shared := some kb) (by decide)).2 ⟨_, .head _, _, .head _, rfl⟩
example : ¬ (toStats own both).ueq = true := by decide
example : ∀ c ∈ kb, UnitEq c := (C75_unit_equality_partial (own := kb) (shared := none) (t := analyzeAll kb) rfl).1 (by decide)
example : (toStats own both).qp1 = true := by
  have r := C75_right_partial (own := own) (shared := some kb) (t := both) (by decide)
  exact (C75_parameters_partial (by decide) r.goals r.assumptions r.axioms r.negGoals r.posunitGoals).1.2 (by decide)
example : problem [] none ≠ none := by rw [ne_eq, C75_defined]; simp
example : ∃ c : Clause, 100000 < (lits c).length := ⟨⟨.rule (List.replicate 100001 (true, ⟨false, false⟩)), .ax, 0, 0, 0⟩, by
  show 100000 < (List.replicate 100001 _).length
  rw [List.length_replicate]; decide⟩

/-- not p(f(x), x) or q(y, x) -/
def stored : Stored := .rule [(true, ⟨false, false⟩, .app [.const 1, .app [.const 2, .var 1], .var 1]), (false, ⟨false, false⟩, .app [.const 3, .var 2, .var 1])]

example : (stored.clause .ax).size = 7 ∧ (stored.clause .ax).depth = 2 ∧ (stored.clause .ax).vars = 2 := by decide
example : ∃ t ∈ terms stored, height t = 2 := ((C75_measures stored .ax).2.2.1).resolve_left (by decide)

end Gkc.Props.Is
