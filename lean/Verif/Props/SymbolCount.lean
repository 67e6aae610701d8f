import Verif.SymbolCount
/-
C76: the occurrences of a symbol are counted, up to a limit.
-/
namespace Gkc.Props.Oc
open Gkc.Is Gkc.Oc

mutual
/-- how often a symbol is in a term -/
def times (k : Nat) : Term → Nat
  | .const m => if m = k then 1 else 0
  | .var _ => 0
  | .app ts => timesAll k ts
def timesAll (k : Nat) : List Term → Nat
  | [] => 0
  | t :: ts => times k t + timesAll k ts
end

/-- the literals of a clause: a sign (true: negative) and the atom -/
def literals : Stored → List (Bool × Term)
  | .fact _ t => [(false, t)]
  | .rule ls => ls.map fun l => (l.1, l.2.2)

/-- how often a symbol is in literals with this sign -/
def occurrences (k : Nat) (sign : Bool) (cs : List Stored) : Nat :=
  (((cs.flatMap literals).filter fun l => l.1 = sign).map fun l => times k l.2).sum

/-- a count that stands for `p` positive and `n` negative occurrences -/
def Stands (u p n : Nat) : Prop := u = min p 65536 * 65536 + min n 8191

theorem pack (p n : Nat) (h : n ≤ 8191) : (p <<< shift) ||| n = p * 65536 + n := by
  rw [← Nat.shiftLeft_add_eq_or_of_lt (show n < 2 ^ shift by simp only [shift]; omega), Nat.shiftLeft_eq]
  rfl

theorem Stands.pos {u p n : Nat} (h : Stands u p n) : pos u = min p 65536 := by
  unfold Oc.pos
  rw [Nat.shiftRight_eq_div_pow, h, show 2 ^ shift = 65536 from rfl]
  omega

theorem Stands.neg {u p n : Nat} (h : Stands u p n) : neg u = min n 8191 := by
  unfold Oc.neg
  rw [show mask = 2 ^ 13 - 1 from rfl, Nat.and_two_pow_sub_one_eq_mod, h]
  omega

theorem Stands.up {u p n : Nat} (h : Stands u p n) : Stands (bump true u) (p + 1) n := by
  unfold bump
  simp only [if_true, h.pos, h.neg]
  rw [pack _ _ (by omega)]
  unfold Stands
  rw [show 1 <<< shift = 65536 from rfl]
  split <;> omega

theorem Stands.down {u p n : Nat} (h : Stands u p n) : Stands (bump false u) p (n + 1) := by
  unfold bump
  simp only [if_false, Bool.false_eq_true, h.pos, h.neg]
  rw [show mask = 8191 from rfl, pack _ _ (by split <;> omega)]
  unfold Stands
  split <;> omega

/-- the numbers after occurrences in a literal -/
def P (polarity : Bool) (p m : Nat) : Nat := if polarity then p + m else p
def N (polarity : Bool) (n m : Nat) : Nat := if polarity then n else n + m

mutual
theorem count_ok (b : Bool) (k : Nat) : ∀ (t : Term) (c : Nat → Nat) (p n : Nat), Stands (c k) p n →
    Stands (count false b t c k) (P b p (times k t)) (N b n (times k t))
  | .const m, c, p, n, h => by
    simp only [count, Bool.false_eq_true, if_false, times]
    by_cases hk : k = m
    · subst hk
      simp only [if_true]
      cases b
      · exact h.down
      · exact h.up
    · rw [if_neg hk, if_neg (Ne.symm hk)]
      cases b <;> exact h
  | .var _, c, p, n, h => by cases b <;> exact h
  | .app ts, c, p, n, h => by rw [count, times]; exact countAll_ok b k ts c p n h
theorem countAll_ok (b : Bool) (k : Nat) : ∀ (ts : List Term) (c : Nat → Nat) (p n : Nat), Stands (c k) p n →
    Stands (countAll false b ts c k) (P b p (timesAll k ts)) (N b n (timesAll k ts))
  | [], c, p, n, h => by cases b <;> exact h
  | t :: ts, c, p, n, h => by
    have := countAll_ok b k ts _ _ _ (count_ok b k t c p n h)
    rw [countAll, timesAll]
    cases b
    · simp only [P, N, Bool.false_eq_true, if_false, Nat.add_assoc] at this ⊢; exact this
    · simp only [P, N, if_true, Nat.add_assoc] at this ⊢; exact this
end

theorem lits_ok (k : Nat) : ∀ (ls : List (Bool × Term)) (c : Nat → Nat) (p n : Nat), Stands (c k) p n →
    Stands (ls.foldl (fun c l => count false (!l.1) l.2 c) c k)
      (p + ((ls.filter fun l => l.1 = false).map fun l => times k l.2).sum) (n + ((ls.filter fun l => l.1 = true).map fun l => times k l.2).sum)
  | [], _, _, _, h => h
  | (s, t) :: ls, c, p, n, h => by
    have := lits_ok k ls _ _ _ (count_ok (!s) k t c p n h)
    cases s
    · simpa [P, N, Nat.add_assoc] using this
    · simpa [P, N, Nat.add_assoc] using this

theorem clause_eq (ext : Bool) (c : Nat → Nat) (d : Stored) : clause ext c d = (literals d).foldl (fun c l => count ext (!l.1) l.2 c) c := by
  cases d with
  | fact a t => rfl
  | rule ls => simp only [clause, literals, List.foldl_map]

theorem all_eq (ext : Bool) : ∀ (cs : List Stored) (c : Nat → Nat),
    cs.foldl (clause ext) c = (cs.flatMap literals).foldl (fun c l => count ext (!l.1) l.2 c) c
  | [], _ => rfl
  | d :: cs, c => by rw [List.foldl_cons, all_eq ext cs, List.flatMap_cons, List.foldl_append, clause_eq]

/-- C76: without a shared database, each symbol is counted as often as it occurs in positive literals, at most 65536 times, and in
    negative literals, at most 8191 times; none of the two numbers disturbs the other -/
theorem C76_counted_partial (cs : List Stored) (k : Nat) :
    pos (all false cs k) = min (occurrences k false cs) 65536 ∧ neg (all false cs k) = min (occurrences k true cs) 8191 := by
  have h : Stands (all false cs k) (occurrences k false cs) (occurrences k true cs) := by
    have := lits_ok k (cs.flatMap literals) (fun _ => 0) 0 0 (by simp [Stands])
    rw [Nat.zero_add, Nat.zero_add] at this
    rw [all, all_eq]
    exact this
  exact ⟨h.pos, h.neg⟩

/-- C76: so a symbol that occurs more often is never taken for one that occurs less often -/
theorem C76_compared_partial (cs : List Stored) (j k : Nat) (hp : occurrences j false cs ≤ occurrences k false cs)
    (hn : occurrences j true cs ≤ occurrences k true cs) :
    pos (all false cs j) + neg (all false cs j) ≤ pos (all false cs k) + neg (all false cs k) := by
  obtain ⟨h1, h2⟩ := C76_counted_partial cs j
  obtain ⟨h3, h4⟩ := C76_counted_partial cs k
  omega

mutual
theorem count_ext (b : Bool) : ∀ (t : Term) (c : Nat → Nat), count true b t c = c
  | .const _, _ => rfl
  | .var _, _ => rfl
  | .app ts, c => countAll_ext b ts c
theorem countAll_ext (b : Bool) : ∀ (ts : List Term) (c : Nat → Nat), countAll true b ts c = c
  | [], _ => rfl
  | t :: ts, c => by rw [countAll, count_ext b t c, countAll_ext b ts c]
end

/-- C76, false with a shared database: what occurs in the file is not counted -/
theorem C76_shared (cs : List Stored) (k : Nat) : all true cs k = 0 := by
  have : ∀ (ls : List (Bool × Term)) (c : Nat → Nat), ls.foldl (fun c l => count true (!l.1) l.2 c) c = c := by
    intro ls
    induction ls with
    | nil => intro c; rfl
    | cons l ls ih => intro c; rw [List.foldl_cons, count_ext]; exact ih c
  rw [all, all_eq, this]

/-- C76, false: two symbols are not told apart by their negative occurrences if both have 8191 or more -/
theorem C76_limit (cs : List Stored) (j k : Nat) (hj : 8191 ≤ occurrences j true cs) (hk : 8191 ≤ occurrences k true cs) :
    neg (all false cs j) = neg (all false cs k) := by
  rw [(C76_counted_partial cs j).2, (C76_counted_partial cs k).2]
  omega

/-! ### examples -/

/-- p(a, a); not p(a, x) or q(b) -/
def two : List Stored :=
  [.fact ⟨false, false⟩ (.app [.const 1, .const 2, .const 2]),
   .rule [(true, ⟨false, false⟩, .app [.const 1, .const 2, .var 1]), (false, ⟨false, false⟩, .app [.const 3, .const 4])]]

example : pos (all false two 2) = 2 ∧ neg (all false two 2) = 1 ∧ pos (all false two 4) = 1 := by decide
example : occurrences 2 false two = 2 ∧ occurrences 2 true two = 1 := by decide
example : pos (all false two 2) = min 2 65536 := (C76_counted_partial two 2).1
example : pos (all false two 4) + neg (all false two 4) ≤ pos (all false two 2) + neg (all false two 2) :=
  C76_compared_partial two 4 2 (by decide) (by decide)
/-- one clause with many negative literals p(a) -/
def many (n : Nat) : List Stored := [.rule (List.replicate n (true, ⟨false, false⟩, .app [.const 1, .const 2]))]
theorem many_often (n k : Nat) (hk : k = 1 ∨ k = 2) : occurrences k true (many n) = n := by
  have : times k (.app [.const 1, .const 2]) = 1 := by rcases hk with rfl | rfl <;> rfl
  simp [occurrences, many, literals, this]
example : neg (all false (many 9000) 1) = neg (all false (many 9000) 2) :=
  C76_limit _ 1 2 (by rw [many_often _ 1 (.inl rfl)]; decide) (by rw [many_often _ 2 (.inr rfl)]; decide)

end Gkc.Props.Oc
