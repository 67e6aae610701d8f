import Verif.Queue
/- Property theorems C22: the priority queue. -/
namespace Gkc.Props
open Gkc.Queue

/-! ### Specification: a list of waiting (priority, clause) pairs in the order they came -/

/-- `L'` is `L` without the pair that has to come out: the earliest of the smallest priority -/
def TakesLightest (L : List (Nat × Nat)) (p c : Nat) (L' : List (Nat × Nat)) : Prop :=
  ∃ pre post, L = pre ++ (p, c) :: post ∧ L' = pre ++ post ∧ (∀ x ∈ pre, p < x.1) ∧ ∀ x ∈ post, p ≤ x.1

/-- what is done with a queue -/
inductive QOp
  | push (cl : Nat) (prior : Int)
  | pick

/-- the required behaviour: `outs` are the answers of the picks -/
inductive Spec (maxPrior : Nat) : List (Nat × Nat) → List QOp → List (Option Nat) → List (Nat × Nat) → Prop
  | nil {L} : Spec maxPrior L [] [] L
  | push {L c ops outs M} {prior : Nat} : Spec maxPrior (L ++ [(min prior maxPrior, c)]) ops outs M →
      Spec maxPrior L (.push c prior :: ops) outs M
  | neg {L c ops outs M} {prior : Int} : prior < 0 → Spec maxPrior L ops outs M →
      Spec maxPrior L (.push c prior :: ops) outs M
  | pick {L p c L' ops outs M} : TakesLightest L p c L' → Spec maxPrior L' ops outs M →
      Spec maxPrior L (.pick :: ops) (some c :: outs) M
  | empty {ops outs M} : Spec maxPrior [] ops outs M → Spec maxPrior [] (.pick :: ops) (none :: outs) M

/-- running the code's queue -/
def runPQ (junk : Nat → Nat) : PQ → List QOp → Option (List (Option Nat) × PQ)
  | q, [] => some ([], q)
  | q, .push c p :: ops => (push junk q c p).bind fun q' => runPQ junk q' ops
  | q, .pick :: ops => (pick q).bind fun r => (runPQ junk r.2 ops).map fun x => (r.1 :: x.1, x.2)

/-! ### Invariant -/

/-- well formed block -/
structure BOk (b : Bucket) : Prop where
  len : b.arr.length = b.len
  free : b.free ≤ b.len
  pick : b.pick ≤ b.free

/-- clauses waiting in a block -/
def waiting (b : Bucket) : List Nat := (b.arr.take b.free).drop b.pick

/-- the queue `q` holds the pairs `L` -/
structure Rep (q : PQ) (L : List (Nat × Nat)) : Prop where
  ok : ∀ p, BOk (q.bk p)
  same : ∀ p, waiting (q.bk p) = (L.filter (fun x => x.1 == p)).map (·.2)
  used : ∀ p, (q.bk p).len ≠ 0 → p ≤ q.maxUsed
  nz : ∀ x ∈ L, x.2 ≠ 0

theorem store_ok {a : List Nat} {i v : Nat} (h : i < a.length) : store a i v = some (a.set i v) := by simp [store, h]

theorem rep_make (m : Nat) : Rep (makePQ m) [] where
  ok p := ⟨rfl, Nat.le_refl _, Nat.le_refl _⟩
  same p := rfl
  used p h := absurd rfl h
  nz x h := by cases h

theorem grow_length (junk : Nat → Nat) (a : List Nat) {n : Nat} (h : a.length ≤ n) : (grow junk a n).length = n := by
  simp [grow]; omega

theorem take_set_free {a : List Nat} {i v : Nat} (h : i < a.length) : (a.set i v).take (i + 1) = a.take i ++ [v] := by
  apply List.ext_getElem
  · simp; omega
  · intro j h1 h2
    simp only [List.getElem_take, List.getElem_set]
    by_cases e : i = j
    · subst e
      rw [List.getElem_append_right (by simp; omega)]
      simp
    · have h3 : j < i := by simp at h1; omega
      rw [List.getElem_append_left (by simp; omega)]
      simp [e]

theorem waiting_push {a : List Nat} {f k v n : Nat} (hk : k ≤ f) (hf : f < a.length) :
    waiting ⟨n, f + 1, k, a.set f v⟩ = (a.take f).drop k ++ [v] := by
  simp only [waiting, take_set_free hf]
  rw [List.drop_append_of_le_length]
  simp; omega

theorem rep_put {q : PQ} {L : List (Nat × Nat)} (h : Rep q L) {p c : Nat} (hc : c ≠ 0) {b : Bucket} (hb : BOk b)
    (hw : waiting b = waiting (q.bk p) ++ [c]) {u : Nat} (hu : q.maxUsed ≤ u) (hp : p ≤ u) :
    Rep { q.upd p b with maxUsed := u } (L ++ [(p, c)]) where
  ok i := by
    by_cases e : i = p
    · simp [PQ.upd, e, hb]
    · simpa [PQ.upd, e] using h.ok i
  same i := by
    by_cases e : i = p
    · subst e
      simp [PQ.upd, hw, h.same i]
    · have e' : ¬ p = i := fun x => e x.symm
      simp [PQ.upd, e, e', h.same i]
  used i hi := by
    by_cases e : i = p
    · subst e; exact hp
    · exact Nat.le_trans (h.used i (by simpa [PQ.upd, e] using hi)) hu
  nz x hx := by
    rcases List.mem_append.1 hx with hx | hx
    · exact h.nz x hx
    · simp at hx; subst hx; exact hc

theorem push_neg {junk : Nat → Nat} {q : PQ} {c : Nat} {prior : Int} (h : prior < 0) : push junk q c prior = some q := by
  simp [push, h]

theorem push_rep {junk : Nat → Nat} {q : PQ} {L : List (Nat × Nat)} (h : Rep q L) (hk : q.maxKeep = 0) {c : Nat} (hc : c ≠ 0)
    (prior : Nat) : ∃ q', push junk q c (prior : Int) = some q' ∧ Rep q' (L ++ [(min prior q.maxPrior, c)]) ∧
      q'.maxKeep = 0 ∧ q'.maxPrior = q.maxPrior := by
  have hp : (if (prior : Int) > q.maxPrior then q.maxPrior else (prior : Int).toNat) = min prior q.maxPrior := by
    split <;> omega
  have h0 : ¬ (prior : Int) < 0 := by omega
  simp only [push, h0, if_false, hk, ne_eq, not_true_eq_false, false_and, hp]
  generalize min prior q.maxPrior = p
  have hok := h.ok p
  by_cases h1 : (q.bk p).len = 0
  · simp only [h1, if_true]
    have hlen : (grow junk [] 8).length = 8 := grow_length _ _ (by simp)
    rw [store_ok (by omega)]
    simp only [Option.map_some]
    have hw0 : waiting (q.bk p) = [] := by
      have : (q.bk p).arr = [] := List.length_eq_zero_iff.1 (by rw [hok.len, h1])
      simp [waiting, this]
    have hw : waiting ⟨8, 1, 0, (grow junk [] 8).set 0 c⟩ = waiting (q.bk p) ++ [c] := by
      rw [waiting_push (Nat.le_refl 0) (by omega), hw0]; simp
    have hb : BOk ⟨8, 1, 0, (grow junk [] 8).set 0 c⟩ := ⟨by simp [hlen], by simp, by simp⟩
    by_cases h2 : p > q.maxUsed
    · refine ⟨_, rfl, ?_, ?_, ?_⟩ <;> simp only [h2, if_true]
      · exact rep_put h hc hb hw (by omega) (Nat.le_refl p)
      · exact hk
      · rfl
    · refine ⟨_, rfl, ?_, ?_, ?_⟩ <;> simp only [h2, if_false]
      · exact rep_put h hc hb hw (Nat.le_refl _) (by omega)
      · exact hk
      · rfl
  · simp only [h1, if_false]
    have hu : p ≤ q.maxUsed := h.used p h1
    by_cases h2 : (q.bk p).free ≥ (q.bk p).len
    · simp only [h2, if_true]
      have hlen : (grow junk (q.bk p).arr ((q.bk p).len * 2)).length = (q.bk p).len * 2 :=
        grow_length _ _ (by rw [hok.len]; omega)
      have hfe : (q.bk p).free = (q.bk p).len := by have := hok.free; omega
      rw [store_ok (by omega)]
      refine ⟨_, rfl, ?_, hk, rfl⟩
      refine rep_put h hc ⟨by simp [hlen], by simp; omega, by simp; have := hok.pick; omega⟩ ?_ (Nat.le_refl _) hu
      rw [waiting_push hok.pick (by omega)]
      simp only [waiting, grow]
      rw [hfe, List.take_append_of_le_length (by simp [hok.len]; omega), List.take_take]
      congr 3; omega
    · simp only [h2, if_false]
      rw [store_ok (by rw [hok.len]; omega)]
      refine ⟨_, rfl, ?_, hk, rfl⟩
      refine rep_put h hc ⟨by simp [hok.len], by simp; omega, by simp; have := hok.pick; omega⟩ ?_ (Nat.le_refl _) hu
      rw [waiting_push hok.pick (by rw [hok.len]; omega)]
      rfl

theorem pickBucket_nil {b : Bucket} (hb : BOk b) (h : waiting b = []) : pickBucket b = some (none, b) := by
  have : ¬ (b.pick < b.free ∧ b.pick < b.len ∧ b.len ≠ 0) := by
    rintro ⟨h1, h2, _⟩
    have hl := congrArg List.length h
    have := hb.len
    simp [waiting] at hl; omega
  rw [pickBucket]; simp [this]

theorem pickBucket_cons {b : Bucket} (hb : BOk b) {c : Nat} {cs : List Nat} (hc : c ≠ 0) (h : waiting b = c :: cs) :
    ∃ b', pickBucket b = some (some c, b') ∧ BOk b' ∧ waiting b' = cs ∧ b'.len = b.len := by
  have hlen := hb.len
  have hfree := hb.free
  have h1 : b.pick < b.free := by
    have hl := congrArg List.length h
    simp [waiting] at hl; omega
  have hget : b.arr[b.pick]? = some c := by
    have h2 : (waiting b)[0]? = some c := by rw [h]; rfl
    simp only [waiting, List.getElem?_drop, List.getElem?_take, Nat.add_zero, h1, if_true] at h2
    exact h2
  refine ⟨{ b with pick := b.pick + 1 }, ?_, ⟨hb.len, hb.free, h1⟩, ?_, rfl⟩
  · rw [pickBucket]
    have : b.pick < b.free ∧ b.pick < b.len ∧ b.len ≠ 0 := ⟨h1, by omega, by omega⟩
    simp [this, hget, hc]
  · have : (waiting b).drop 1 = cs := by rw [h]; rfl
    simpa [waiting, List.drop_drop] using this

theorem upd_self {q : PQ} {p : Nat} : q.upd p (q.bk p) = q := by
  cases q
  simp only [PQ.upd, PQ.mk.injEq, true_and]
  funext i
  split
  · rename_i e; rw [e]
  · rfl

theorem filter_split {L : List (Nat × Nat)} {p c : Nat} {cs : List Nat}
    (h : (L.filter (fun x => x.1 == p)).map (·.2) = c :: cs) :
    ∃ pre post, L = pre ++ (p, c) :: post ∧ (∀ x ∈ pre, x.1 ≠ p) ∧ (post.filter (fun x => x.1 == p)).map (·.2) = cs := by
  induction L with
  | nil => simp at h
  | cons x L ih =>
    by_cases e : x.1 = p
    · simp only [List.filter_cons, e, beq_self_eq_true, if_true, List.map_cons, List.cons.injEq] at h
      refine ⟨[], L, ?_, by simp, h.2⟩
      rw [← e, ← h.1]; rfl
    · have e' : (x.1 == p) = false := by simp [e]
      simp only [List.filter_cons, e'] at h
      obtain ⟨pre, post, h1, h2, h3⟩ := ih h
      refine ⟨x :: pre, post, by rw [h1]; rfl, ?_, h3⟩
      intro y hy
      rcases List.mem_cons.1 hy with rfl | hy
      · exact e
      · exact h2 y hy

theorem pickLoop_rep {q : PQ} {L : List (Nat × Nat)} (h : Rep q L) : ∀ (n p : Nat), (∀ x ∈ L, p ≤ x.1) →
    p + n = q.maxUsed + 1 → ∃ r q', pickLoop q p n = some (r, q') ∧ q'.maxKeep = q.maxKeep ∧ q'.maxPrior = q.maxPrior ∧
      ((r = none ∧ L = [] ∧ Rep q' []) ∨ ∃ c p' L', r = some c ∧ TakesLightest L p' c L' ∧ Rep q' L') := by
  intro n
  induction n with
  | zero =>
    intro p hp hn
    refine ⟨_, _, rfl, rfl, rfl, Or.inl ⟨rfl, ?_⟩⟩
    have : L = [] := by
      cases L with
      | nil => rfl
      | cons x L =>
        exfalso
        have h1 := hp x (by simp)
        have h2 : waiting (q.bk x.1) ≠ [] := by rw [h.same]; simp
        have h3 : (q.bk x.1).len ≠ 0 := by
          intro e
          have hl := (h.ok x.1).len
          rw [e] at hl
          exact h2 (by simp [waiting, List.length_eq_zero_iff.1 hl])
        have := h.used _ h3
        omega
    subst this
    exact ⟨rfl, h⟩
  | succ n ih =>
    intro p hp hn
    cases hw : waiting (q.bk p) with
    | nil =>
      simp only [pickLoop, pickBucket_nil (h.ok p) hw, upd_self]
      refine ih (p + 1) ?_ (by omega)
      intro x hx
      have h1 := hp x hx
      have h2 : x.1 ≠ p := by
        intro e
        have := h.same p
        rw [hw] at this
        have h3 : x ∈ L.filter (fun x => x.1 == p) := by simp [hx, e]
        have h4 := List.map_eq_nil_iff.1 this.symm
        rw [h4] at h3; cases h3
      omega
    | cons c cs =>
      have hs := h.same p
      rw [hw] at hs
      obtain ⟨pre, post, h1, h2, h3⟩ := filter_split hs.symm
      have hc : c ≠ 0 := h.nz (p, c) (by rw [h1]; simp)
      obtain ⟨b', hb1, hb2, hb3, hb4⟩ := pickBucket_cons (h.ok p) hc hw
      simp only [pickLoop, hb1]
      have hpre : pre.filter (fun x => x.1 == p) = [] := by
        rw [List.filter_eq_nil_iff]; intro x hx; simp [h2 x hx]
      refine ⟨_, _, rfl, rfl, rfl, Or.inr ⟨c, p, pre ++ post, rfl, ⟨pre, post, h1, rfl, ?_, ?_⟩, ?_⟩⟩
      · intro x hx
        have := hp x (by rw [h1]; simp [hx])
        have := h2 x hx
        omega
      · intro x hx
        exact hp x (by rw [h1]; simp [hx])
      · refine ⟨?_, ?_, ?_, ?_⟩
        · intro i
          by_cases e : i = p
          · simp [PQ.upd, e, hb2]
          · simpa [PQ.upd, e] using h.ok i
        · intro i
          by_cases e : i = p
          · subst e
            simp [PQ.upd, hb3, hpre, h3]
          · have e' : (p == i) = false := by simp; exact fun x => e x.symm
            simp [PQ.upd, e, h.same i, h1, e']
        · intro i hi
          by_cases e : i = p
          · subst e; exact h.used i (by simpa [PQ.upd, hb4] using hi)
          · exact h.used i (by simpa [PQ.upd, e] using hi)
        · intro x hx
          refine h.nz x ?_
          rw [h1]
          rcases List.mem_append.1 hx with hx | hx <;> simp [hx]

theorem pick_rep {q : PQ} {L : List (Nat × Nat)} (h : Rep q L) :
    ∃ r q', pick q = some (r, q') ∧ q'.maxKeep = q.maxKeep ∧ q'.maxPrior = q.maxPrior ∧
      ((r = none ∧ L = [] ∧ Rep q' []) ∨ ∃ c p' L', r = some c ∧ TakesLightest L p' c L' ∧ Rep q' L') :=
  pickLoop_rep h _ 0 (by simp) (by omega)

theorem run_spec {junk : Nat → Nat} : ∀ (ops : List QOp) {q : PQ} {L : List (Nat × Nat)}, Rep q L → q.maxKeep = 0 →
    (∀ c p, QOp.push c p ∈ ops → c ≠ 0) →
    ∃ outs q' M, runPQ junk q ops = some (outs, q') ∧ Spec q.maxPrior L ops outs M ∧ Rep q' M := by
  intro ops
  induction ops with
  | nil => intro q L h _ _; exact ⟨_, _, _, rfl, .nil, h⟩
  | cons o ops ih =>
    intro q L h hk hc
    have hc' : ∀ c p, QOp.push c p ∈ ops → c ≠ 0 := fun c p hm => hc c p (by simp [hm])
    cases o with
    | push c p =>
      by_cases hp : p < 0
      · obtain ⟨outs, q', M, h1, h2, h3⟩ := ih h hk hc'
        exact ⟨outs, q', M, by simp [runPQ, push_neg hp, h1], .neg hp h2, h3⟩
      · obtain ⟨n, rfl⟩ : ∃ n : Nat, p = n := ⟨p.toNat, by omega⟩
        obtain ⟨q1, e1, r1, k1, m1⟩ := push_rep (junk := junk) h hk (hc c n (by simp)) n
        obtain ⟨outs, q', M, h1, h2, h3⟩ := ih r1 k1 hc'
        rw [m1] at h2
        exact ⟨outs, q', M, by simp [runPQ, e1, h1], .push h2, h3⟩
    | pick =>
      obtain ⟨r, q1, e1, k1, m1, ⟨rfl, rfl, r1⟩ | ⟨c, p, L', rfl, hl, r1⟩⟩ := pick_rep h
      · obtain ⟨outs, q', M, h1, h2, h3⟩ := ih r1 (k1.trans hk) hc'
        rw [m1] at h2
        exact ⟨_, _, _, by simp [runPQ, e1, h1], .empty h2, h3⟩
      · obtain ⟨outs, q', M, h1, h2, h3⟩ := ih r1 (k1.trans hk) hc'
        rw [m1] at h2
        exact ⟨_, _, _, by simp [runPQ, e1, h1], .pick hl h2, h3⟩

/-! ### C22 -/

/-- C22: in every history of pushes and picks on a new priority queue, whatever memory contains,
no access is outside the allocated arrays and every pick answers the earliest pushed of the
clauses of smallest priority (priorities above the maximum counting as the maximum), or nothing
exactly when nothing is waiting. -/
theorem C22_priority_queue_refines (junk : Nat → Nat) (maxPrior : Nat) (ops : List QOp)
    (hc : ∀ c p, QOp.push c p ∈ ops → c ≠ 0) :
    ∃ outs q M, runPQ junk (makePQ maxPrior) ops = some (outs, q) ∧ Spec maxPrior [] ops outs M := by
  obtain ⟨outs, q, M, h1, h2, _⟩ := run_spec (junk := junk) ops (rep_make maxPrior) rfl hc
  exact ⟨outs, q, M, h1, h2⟩

/-- the clauses pushed with a priority that is not negative -/
def pushed : List QOp → List Nat
  | [] => []
  | .push c p :: ops => if p < 0 then pushed ops else c :: pushed ops
  | .pick :: ops => pushed ops

theorem TakesLightest.perm {L L' : List (Nat × Nat)} {p c : Nat} (h : TakesLightest L p c L') :
    (L.map (·.2)).Perm (c :: L'.map (·.2)) := by
  obtain ⟨pre, post, rfl, rfl, _, _⟩ := h
  simp only [List.map_append, List.map_cons]
  exact List.perm_middle

theorem spec_perm {m : Nat} {L M : List (Nat × Nat)} {ops : List QOp} {outs : List (Option Nat)}
    (h : Spec m L ops outs M) : (L.map (·.2) ++ pushed ops).Perm (outs.filterMap id ++ M.map (·.2)) := by
  induction h with
  | nil => simp [pushed]
  | @push L c ops outs M prior _ ih =>
    have : ¬ (prior : Int) < 0 := by omega
    simp only [pushed, this, if_false]
    simpa using ih
  | neg hp _ ih => simpa [pushed, hp] using ih
  | pick hl _ ih =>
    simp only [pushed, List.filterMap_cons, id]
    exact (hl.perm.append_right _).trans (List.Perm.cons _ ih)
  | empty _ ih => simpa [pushed] using ih

/-- C22: nothing is lost or returned twice: after any history, the clauses pushed are, counted
with repetition, those returned and a rest; the rest is empty exactly when the next pick returns
nothing. -/
theorem C22_each_pushed_once (junk : Nat → Nat) (maxPrior : Nat) (ops : List QOp)
    (hc : ∀ c p, QOp.push c p ∈ ops → c ≠ 0) (outs : List (Option Nat)) (q : PQ)
    (h : runPQ junk (makePQ maxPrior) ops = some (outs, q)) :
    ∃ rest, (pushed ops).Perm (outs.filterMap id ++ rest) ∧ (rest = [] ↔ ∃ q', pick q = some (none, q')) := by
  obtain ⟨outs', q', M, h1, h2, h3⟩ := run_spec (junk := junk) ops (rep_make maxPrior) rfl hc
  rw [h] at h1
  cases h1
  refine ⟨M.map (·.2), by simpa using spec_perm h2, ?_⟩
  obtain ⟨r, q1, e1, _, _, ⟨rfl, rfl, _⟩ | ⟨c, p, L', rfl, hl, _⟩⟩ := pick_rep h3
  · simp [e1]
  · obtain ⟨pre, post, rfl, _⟩ := hl
    simp [e1]

/-- clauses 11, 12, 13 pushed with priorities 5, 3, 5: the order is 12, 11, 13, nothing -/
example : (runPQ (fun _ => 7) (makePQ 10000)
      [.push 11 5, .push 12 3, .push 13 5, .pick, .pick, .pick, .pick]).map (·.1) =
    some [some 12, some 11, some 13, none] := by decide +kernel

end Gkc.Props
