import Verif.LockOps
/-
C44: a write lock excludes all other locks.  C45: the locks are given in the order of the requests.
-/
namespace Gkc.Props
open Gkc.Lock

/-! ### Runs -/

/-- the requests in the order in which they were queued, as process and node; a request is removed when the lock is
given back or the process gives up -/
def arrivals (a : Act) (s : Lock.St) (h : List (Nat × Nat)) : List (Nat × Nat) :=
  match a with
  | .cas i => match s.pcs[i]? with
    | some (.spin (.enq _)) => if s.mem.free = 0 then h else h ++ [(i, s.mem.free)]
    | some (.spin (.rel _ _)) | some (.spin (.quit _ _)) => h.filter (·.1 ≠ i)
    | _ => h
  | _ => h

/-- all interleavings of any number of processes, in which every step is `ok` -/
inductive LRun (ok : Lock.St → Act → Bool) : Lock.St → List (Nat × Nat) → Prop
  | init (max procs : Nat) (m : Mem) (h : 0 < max) : LRun ok (Lock.init max procs m) []
  | step {s s' : Lock.St} {h : List (Nat × Nat)} {a : Act} (r : LRun ok s h) (o : ok s a = true)
      (e : Lock.step a s = some s') : LRun ok s' (arrivals a s h)

/-- FUTEX_WAIT returns by itself (EINTR) -/
def isIntr : Act → Bool
  | .intr _ => true
  | _ => false

/-- FUTEX_WAIT returns, not because the time is over, though `waiting` is still set -/
def wakesEarly (s : Lock.St) : Act → Bool
  | .intr j | .wake _ (some j) => match s.pcs[j]? with
    | some (.blocked _ n) => s.mem.wt n != 0
    | _ => false
  | _ => false

/-- a process that gives up takes the queue lock after it was already given the lock -/
def lateQuit (s : Lock.St) : Act → Bool
  | .cas i => match s.pcs[i]? with
    | some (.spin (.quit _ n)) => s.mem.wt n == 0
    | _ => false
  | _ => false

/-! ### The invariant along runs -/

theorem arrivals_arrive {s : Lock.St} {i : Nat} {op : Op} (hc : s.pcs[i]? = some (.spin op)) (h : List (Nat × Nat)) :
    arrivals (.cas i) s h = arrive i op s.mem h := by
  unfold arrivals
  simp only [hc]
  cases op <;> rfl

theorem LInv.write {s h m A B R} (I : LInv s h m A B R) {i : Nat} {x : Wr} {ws : List Wr} {k : After}
    (hc : s.pcs[i]? = some (.sect (x :: ws) k)) :
    LInv ({ s with mem := x.app s.mem }.pc i (.sect ws k)) h m A B R := by
  have g : ∀ j, ({ s with mem := x.app s.mem }.pc i (.sect ws k)).pcs[j]? = if j = i then some (.sect ws k) else s.pcs[j]? :=
    fun j => pc_get (s := { s with mem := x.app s.mem }) hc j
  refine ⟨I.links, I.grant, I.hq, ?_, ?_, ?_, ?_⟩
  · intro j n
    rw [I.own, g]
    by_cases hj : j = i
    · subst hj; rw [if_pos rfl, hc]; simp [PC.owns]
    · rw [if_neg hj]
  · intro j d w n hd hw
    rw [g] at hd
    by_cases hj : j = i
    · rw [if_pos hj] at hd; cases hd; exact I.cls hc hw
    · rw [if_neg hj] at hd; exact I.cls hd hw
  · intro j d n hd hw
    rw [g] at hd
    by_cases hj : j = i
    · rw [if_pos hj] at hd; cases hd
      refine I.got hc ?_
      cases k <;> exact hw
    · rw [if_neg hj] at hd; exact I.got hd hw
  · rcases I.sec with ⟨q1, q2, q3⟩ | ⟨y, ws', k', q1, q2, q3, q4, q5⟩
    · have := q3 i _ hc; cases this
    · have hy : i = y := q4 i _ hc rfl
      subst hy
      rw [hc] at q2
      cases q2
      refine .inr ⟨i, ws, k, q1, by rw [g, if_pos rfl], q3, ?_, fun z v hz => q5 z v (by simp [hz])⟩
      intro j d hd hs
      rw [g] at hd
      by_cases hj : j = i
      · exact hj
      · rw [if_neg hj] at hd; exact q4 j d hd hs

theorem after_owns (k : After) : (after k).owns = k.owns := by
  cases k with
  | zero => rfl
  | look w n => rfl
  | fin a h =>
    simp only [after]
    split
    · rfl
    · cases h <;> rfl

theorem after_granted (k : After) (ws : List Wr) : (after k).granted = (PC.sect ws k).granted := by
  cases k with
  | zero => rfl
  | look w n => rfl
  | fin a h =>
    simp only [after]
    split
    · rfl
    · cases h <;> rfl

theorem after_inSect (k : After) : (after k).inSect = false := by
  cases k with
  | zero => rfl
  | look w n => rfl
  | fin a h =>
    simp only [after]
    split
    · rfl
    · cases h <;> rfl

theorem LInv.unlock {s h m A B R} (I : LInv s h m A B R) {i : Nat} {k : After} (hc : s.pcs[i]? = some (.sect [] k)) :
    LInv ({ s with q := 0 }.pc i (after k)) h m A B R := by
  have g : ∀ j, ({ s with q := 0 }.pc i (after k)).pcs[j]? = if j = i then some (after k) else s.pcs[j]? :=
    fun j => pc_get (s := { s with q := 0 }) hc j
  refine ⟨I.links, I.grant, I.hq, ?_, ?_, ?_, ?_⟩
  · intro j n
    rw [I.own, g]
    by_cases hj : j = i
    · subst hj; rw [if_pos rfl, hc]
      constructor
      · rintro ⟨c, w, e1, e2⟩; cases e1; exact ⟨_, w, rfl, by rw [after_owns]; exact e2⟩
      · rintro ⟨c, w, e1, e2⟩; cases e1; exact ⟨_, w, rfl, by rw [after_owns] at e2; exact e2⟩
    · rw [if_neg hj]
  · intro j d w n hd hw
    rw [g] at hd
    by_cases hj : j = i
    · rw [if_pos hj] at hd; cases hd; exact I.cls hc (by rw [after_owns] at hw; exact hw)
    · rw [if_neg hj] at hd; exact I.cls hd hw
  · intro j d n hd hw
    rw [g] at hd
    by_cases hj : j = i
    · rw [if_pos hj] at hd; cases hd; exact I.got hc (by rw [after_granted k []] at hw; exact hw)
    · rw [if_neg hj] at hd; exact I.got hd hw
  · rcases I.sec with ⟨q1, q2, q3⟩ | ⟨y, ws', k', q1, q2, q3, q4, q5⟩
    · have := q3 i _ hc; cases this
    · have hy : i = y := q4 i _ hc rfl
      subst hy
      rw [hc] at q2
      cases q2
      refine .inl ⟨rfl, q3.symm, ?_⟩
      intro j d hd
      rw [g] at hd
      by_cases hj : j = i
      · rw [if_pos hj] at hd; cases hd; exact after_inSect k
      · rw [if_neg hj] at hd
        cases hd' : d.inSect with
        | false => rfl
        | true => exact absurd (q4 j d hd hd') hj

theorem woken_owns (w : Bool) (n : Nat) : (woken w n).owns = some (w, n) := by cases w <;> rfl
theorem woken_granted (w : Bool) (n : Nat) : (woken w n).granted = some n := by cases w <;> rfl
theorem woken_inSect (w : Bool) (n : Nat) : (woken w n).inSect = false := by cases w <;> rfl
theorem ret_owns (h : Option Nat) : (ret h).owns = h.map fun n => (false, n) := by cases h <;> rfl
theorem ret_granted (h : Option Nat) : (ret h).granted = h := by cases h <;> rfl
theorem ret_inSect (h : Option Nat) : (ret h).inSect = false := by cases h <;> rfl

theorem LInv.step {s s' h m A B R} (I : LInv s h m A B R) {a : Act} (ok : wakesEarly s a = false)
    (e : Lock.step a s = some s') :
    ∃ m' A' B' R', LInv s' (arrivals a s h) m' A' B' R' ∧
      ((A ++ B ≠ [] → A ≠ []) → lateQuit s a = false → (A' ++ B' ≠ [] → A' ≠ [])) := by
  have keep : ∀ {s'}, LInv s' h m A B R → arrivals a s h = h → ∃ m' A' B' R', LInv s' (arrivals a s h) m' A' B' R' ∧
      ((A ++ B ≠ [] → A ≠ []) → lateQuit s a = false → (A' ++ B' ≠ [] → A' ≠ [])) := by
    intro s' I' ha
    rw [ha]
    exact ⟨m, A, B, R, I', fun h _ => h⟩
  cases a with
  | start i w =>
    refine keep ?_ rfl
    simp only [Lock.step] at e
    split at e
    · rename_i hc
      cases e
      exact I.move hc rfl rfl rfl (by intro n hn; cases hn)
    · cases e
  | finish i =>
    refine keep ?_ rfl
    simp only [Lock.step] at e
    split at e
    · rename_i w n hc
      cases e
      exact I.move hc rfl rfl rfl (by intro k hk; cases hk; exact I.got hc rfl)
    · cases e
  | cas i =>
    simp only [Lock.step] at e
    split at e
    · rename_i op hc
      split at e
      · rename_i hq
        cases e
        rw [arrivals_arrive hc]
        obtain ⟨m', A', B', R', I', hd⟩ := I.cas hc hq
        refine ⟨m', A', B', R', I', fun h1 h2 => hd h1 ?_⟩
        intro w n hop hn
        subst hop
        simp only [lateQuit, hc, beq_eq_false_iff_ne, ne_eq] at h2
        rw [(I.calm hq).1] at h2
        exact h2 (I.grant.gr n hn)
      · cases e
    · cases e
  | write i =>
    refine keep ?_ rfl
    simp only [Lock.step] at e
    split at e
    · rename_i x ws k hc
      cases e
      exact LInv.write I hc
    · cases e
  | unlock i =>
    refine keep ?_ rfl
    simp only [Lock.step] at e
    split at e
    · rename_i k hc
      cases e
      exact LInv.unlock I hc
    · cases e
  | look i =>
    refine keep ?_ rfl
    simp only [Lock.step] at e
    split at e
    · rename_i w n hc
      cases e
      split
      · exact I.move hc rfl rfl rfl (by intro k hk; cases hk)
      · rename_i hw
        refine I.move hc rfl rfl rfl ?_
        intro k hk; cases hk
        exact I.reads hc rfl rfl (by omega)
    · cases e
  | futex i =>
    refine keep ?_ rfl
    simp only [Lock.step] at e
    split at e
    · rename_i w n hc
      cases e
      split
      · exact I.move hc rfl rfl rfl (by intro k hk; cases hk)
      · rename_i hw
        refine I.move hc rfl (woken_inSect w n) (woken_owns w n) ?_
        intro k hk
        rw [woken_granted] at hk; cases hk
        exact I.reads hc rfl rfl hw
    · cases e
  | timeout i =>
    refine keep ?_ rfl
    simp only [Lock.step] at e
    split at e
    · rename_i w n hc
      cases e
      exact I.move hc rfl rfl rfl (by intro k hk; cases hk)
    · cases e
  | intr i =>
    refine keep ?_ rfl
    simp only [Lock.step] at e
    split at e
    · rename_i w n hc
      cases e
      refine I.move hc rfl (woken_inSect w n) (woken_owns w n) ?_
      intro k hk
      rw [woken_granted] at hk; cases hk
      simp only [wakesEarly, hc, bne_eq_false_iff_eq] at ok
      exact I.reads hc rfl rfl (by omega)
    · cases e
  | wake i r =>
    refine keep ?_ rfl
    simp only [Lock.step] at e
    split at e
    · rename_i a x hc
      have I1 : LInv (s.pc i (ret x)) h m A B R := by
        refine I.move hc rfl (ret_inSect x) (ret_owns x) ?_
        intro n hn
        rw [ret_granted] at hn
        exact I.got hc hn
      cases r with
      | none =>
        simp only [] at e
        split at e
        · cases e; exact I1
        · cases e
      | some j =>
        simp only [] at e
        split at e
        · rename_i w n hj
          split at e
          · cases e
            have hne : j ≠ i := by rintro rfl; rw [hc] at hj; cases hj
            have hj' : (s.pc i (ret x)).pcs[j]? = some (.blocked w n) := by
              rw [pc_get hc, if_neg hne]; exact hj
            refine I1.move hj' rfl (woken_inSect w n) (woken_owns w n) ?_
            intro k hk
            rw [woken_granted] at hk; cases hk
            simp only [wakesEarly, hj, bne_eq_false_iff_eq] at ok
            exact I.reads hj rfl rfl (by omega)
          · cases e
        · cases e
    · cases e

theorem fch_range (max : Nat) : ∀ d k, k + d = max + 1 → 0 < k → k ≤ max →
    Fch (fun n => if n < max then n + 1 else 0) k (List.range' k d)
  | 0, k, h, _, h' => by omega
  | d + 1, k, h, hk, h' => by
    refine ⟨rfl, ?_⟩
    by_cases hd : d = 0
    · subst hd
      simp only []
      rw [if_neg (by omega)]; rfl
    · simp only []
      rw [if_pos (by omega)]
      exact fch_range max d (k + 1) (by omega) (by omega) (by omega)

theorem LInv.init (max procs : Nat) (m : Mem) (h : 0 < max) :
    LInv (Lock.init max procs m) [] (Lock.init max procs m).mem [] [] (List.range' 1 max) := by
  have hp : ∀ {i : Nat} {c : PC}, (Lock.init max procs m).pcs[i]? = some c → c = .idle := by
    intro i c hc
    simp only [Lock.init, List.getElem?_replicate] at hc
    split at hc
    · cases hc; rfl
    · cases hc
  refine ⟨⟨?_, ?_, ?_, rfl, fch_range max max 1 (by omega) (by omega) (by omega)⟩, ⟨by simp, by simp, .inr (by simp)⟩, rfl, ?_, ?_, ?_, ?_⟩
  · simpa using List.nodup_range'
  · intro n hn
    simp only [List.append_nil, List.nil_append, List.mem_range'] at hn
    omega
  · intro X n Y e; simp at e
  · intro i n
    constructor
    · intro hin; simp at hin
    · rintro ⟨c, w, hc, ho⟩
      rw [hp hc] at ho; cases ho
  · intro i c w n hc ho
    rw [hp hc] at ho; cases ho
  · intro i c n hc ho
    rw [hp hc] at ho; cases ho
  · refine .inl ⟨rfl, rfl, ?_⟩
    intro i c hc
    rw [hp hc]; rfl

theorem LRun.inv {ok : Lock.St → Act → Bool} (hok : ∀ s a, ok s a = true → wakesEarly s a = false)
    {s : Lock.St} {h : List (Nat × Nat)} (r : LRun ok s h) :
    ∃ m A B R, LInv s h m A B R ∧ ((∀ s a, ok s a = true → lateQuit s a = false) → (A ++ B ≠ [] → A ≠ [])) := by
  induction r with
  | init max procs m h => exact ⟨_, [], [], _, LInv.init max procs m h, by simp⟩
  | step r o e ih =>
    obtain ⟨m, A, B, R, I, hd⟩ := ih
    obtain ⟨m', A', B', R', I', hd'⟩ := LInv.step I (hok _ _ o) e
    exact ⟨m', A', B', R', I', fun h => hd' (hd h) (h _ _ o)⟩

/-! ### The theorems -/

/-- C44: in a run where no process comes back from FUTEX_WAIT too early, nobody else has a lock while a process has the write lock -/
theorem C44_exclusion_partial {s : Lock.St} {h : List (Nat × Nat)} (r : LRun (fun s a => !wakesEarly s a) s h)
    {i j n k : Nat} {w : Bool} (hi : s.pcs[i]? = some (.held true n)) (hj : s.pcs[j]? = some (.held w k)) : i = j := by
  obtain ⟨m, A, B, R, I, _⟩ := r.inv (by simp)
  have h1 := I.got hi rfl
  have h2 := I.got hj rfl
  have h3 := I.cls hi (w := true) rfl
  have hA : A = [n] := by
    rcases I.grant.kind with ⟨z, rfl⟩ | hh
    · simp only [List.mem_singleton] at h1; rw [h1]
    · have := hh n h1
      rw [h3] at this; simp [code] at this
  rw [hA, List.mem_singleton] at h2
  subst h2
  have := snd_inj I.nodup ((I.own i k).2 ⟨_, _, hi, rfl⟩) ((I.own j k).2 ⟨_, _, hj, rfl⟩) rfl
  exact congrArg Prod.fst this

/-- C44: whatever happens, at most one process is between lock_queue and unlock_queue, and nobody else changes the
memory in this time -/
theorem C44_queue_lock {ok : Lock.St → Act → Bool} {s : Lock.St} {h : List (Nat × Nat)} (r : LRun ok s h) :
    (∀ (i j : Nat) ws ws' k k', s.pcs[i]? = some (PC.sect ws k) → s.pcs[j]? = some (PC.sect ws' k') → i = j) ∧
    (∀ (i : Nat) ws k a s', s.pcs[i]? = some (PC.sect ws k) → Lock.step a s = some s' → a ≠ .write i → s'.mem = s.mem) := by
  have key : (s.q = 0 ∧ ∀ (i : Nat) (c : PC), s.pcs[i]? = some c → c.inSect = false) ∨
      (s.q ≠ 0 ∧ ∃ i : Nat, ∀ (j : Nat) (c : PC), s.pcs[j]? = some c → c.inSect = true → j = i) := by
    induction r with
    | init max procs m h =>
      refine .inl ⟨rfl, ?_⟩
      intro i c hc
      simp only [Lock.init, List.getElem?_replicate] at hc
      split at hc
      · cases hc; rfl
      · cases hc
    | @step s s' h a r o e ih =>
      have move : ∀ {s : Lock.St} {i : Nat} {c c' : PC}, s.pcs[i]? = some c → (c'.inSect = true → c.inSect = true) →
          ((s.q = 0 ∧ ∀ (i : Nat) (c : PC), s.pcs[i]? = some c → c.inSect = false) ∨
           (s.q ≠ 0 ∧ ∃ i : Nat, ∀ (j : Nat) (c : PC), s.pcs[j]? = some c → c.inSect = true → j = i)) →
          (((s.pc i c').q = 0 ∧ ∀ (j : Nat) (c : PC), (s.pc i c').pcs[j]? = some c → c.inSect = false) ∨
           ((s.pc i c').q ≠ 0 ∧ ∃ i0 : Nat, ∀ (j : Nat) (c : PC), (s.pc i c').pcs[j]? = some c → c.inSect = true → j = i0)) := by
        intro s i c c' hc hs ih
        rcases ih with ⟨h1, h2⟩ | ⟨h1, i0, h2⟩
        · refine .inl ⟨h1, ?_⟩
          intro j d hd
          rw [pc_get hc] at hd
          by_cases hj : j = i
          · rw [if_pos hj] at hd; cases hd
            cases h' : c'.inSect with
            | false => rfl
            | true => have := hs h'; rw [h2 i c hc] at this; cases this
          · rw [if_neg hj] at hd; exact h2 j d hd
        · refine .inr ⟨h1, i0, ?_⟩
          intro j d hd hs'
          rw [pc_get hc] at hd
          by_cases hj : j = i
          · rw [if_pos hj] at hd; cases hd; subst hj; exact h2 j c hc (hs hs')
          · rw [if_neg hj] at hd; exact h2 j d hd hs'
      cases a with
      | cas i =>
        simp only [Lock.step] at e
        split at e
        · rename_i op hc
          split at e
          · rename_i hq
            cases e
            rcases ih with ⟨_, h2⟩ | ⟨h1, _⟩
            · refine .inr ⟨by simp [St.pc], i, ?_⟩
              intro j d hd hs
              rw [pc_get (s := { s with q := 1 }) (i := i) hc] at hd
              by_cases hj : j = i
              · exact hj
              · rw [if_neg hj] at hd
                rw [h2 j d hd] at hs; cases hs
            · exact absurd hq h1
          · cases e
        · cases e
      | unlock i =>
        simp only [Lock.step] at e
        split at e
        · rename_i k hc
          cases e
          rcases ih with ⟨_, h2⟩ | ⟨h1, i0, h2⟩
          · have := h2 i _ hc; cases this
          · refine .inl ⟨rfl, ?_⟩
            intro j d hd
            rw [pc_get (s := { s with q := 0 }) (i := i) hc] at hd
            by_cases hj : j = i
            · rw [if_pos hj] at hd; cases hd; exact after_inSect k
            · rw [if_neg hj] at hd
              cases hs : d.inSect with
              | false => rfl
              | true => exact absurd ((h2 j d hd hs).trans (h2 i _ hc rfl).symm) hj
        · cases e
      | write i =>
        simp only [Lock.step] at e
        split at e
        · rename_i x ws k hc
          cases e
          exact move (s := { s with mem := x.app s.mem }) hc (fun _ => rfl) ih
        · cases e
      | wake i r =>
        simp only [Lock.step] at e
        split at e
        · rename_i a x hc
          have I1 := move (c' := ret x) hc (by rw [ret_inSect]; intro h; cases h) ih
          cases r with
          | none =>
            simp only [] at e
            split at e
            · cases e; exact I1
            · cases e
          | some j =>
            simp only [] at e
            split at e
            · rename_i w n hj
              split at e
              · cases e
                have hne : j ≠ i := by rintro rfl; rw [hc] at hj; cases hj
                exact move (by rw [pc_get hc, if_neg hne]; exact hj) (by rw [woken_inSect]; intro h; cases h) I1
              · cases e
            · cases e
        · cases e
      | look i =>
        simp only [Lock.step] at e
        split at e
        · rename_i w n hc
          cases e
          refine move hc ?_ ih
          split <;> (intro h; cases h)
        · cases e
      | futex i =>
        simp only [Lock.step] at e
        split at e
        · rename_i w n hc
          cases e
          refine move hc ?_ ih
          split
          · intro h; cases h
          · rw [woken_inSect]; intro h; cases h
        · cases e
      | intr i =>
        simp only [Lock.step] at e
        split at e
        · rename_i w n hc
          cases e
          exact move hc (by rw [woken_inSect]; intro h; cases h) ih
        · cases e
      | start i w =>
        simp only [Lock.step] at e
        split at e
        · rename_i hc; cases e; exact move hc (by intro h; cases h) ih
        · cases e
      | finish i =>
        simp only [Lock.step] at e
        split at e
        · rename_i hc; cases e; exact move hc (by intro h; cases h) ih
        · cases e
      | timeout i =>
        simp only [Lock.step] at e
        split at e
        · rename_i hc; cases e; exact move hc (by intro h; cases h) ih
        · cases e
  have one : ∀ (i j : Nat) ws ws' k k', s.pcs[i]? = some (PC.sect ws k) → s.pcs[j]? = some (PC.sect ws' k') → i = j := by
    intro i j ws ws' k k' hi hj
    rcases key with ⟨_, h2⟩ | ⟨_, i0, h2⟩
    · have := h2 i _ hi; cases this
    · exact (h2 i _ hi rfl).trans (h2 j _ hj rfl).symm
  refine ⟨one, ?_⟩
  intro i ws k a s' hi e hne
  cases a with
  | write j =>
    simp only [Lock.step] at e
    split at e
    · rename_i hc
      exact absurd (by rw [one _ _ _ _ _ _ hc hi]) hne
    · cases e
  | wake j r =>
    simp only [Lock.step] at e
    split at e
    · cases r with
      | none =>
        simp only [] at e
        split at e
        · cases e; rfl
        · cases e
      | some l =>
        simp only [] at e
        split at e
        · split at e
          · cases e; rfl
          · cases e
        · cases e
    · cases e
  | cas j =>
    simp only [Lock.step] at e
    split at e
    · split at e
      · cases e; rfl
      · cases e
    · cases e
  | _ =>
    simp only [Lock.step] at e
    split at e
    · cases e; rfl
    · cases e

/-- C45: a request is not served before an earlier one that is still there, unless both are for reading and the earlier one has been
served too (its `waiting` is 0 whenever the queue lock is free) -/
theorem C45_order_partial {s : Lock.St} {X Y Z : List (Nat × Nat)} {i j n k : Nat} {w : Bool}
    (r : LRun (fun s a => !wakesEarly s a) s (X ++ (i, n) :: Y ++ (j, k) :: Z)) (hq : s.q = 0)
    (hj : s.pcs[j]? = some (.held w k)) : s.mem.wt n = 0 ∧ s.mem.cls n = code false ∧ w = false := by
  obtain ⟨m, A, B, R, I, _⟩ := r.inv (by simp)
  obtain ⟨rfl, _⟩ := I.calm hq
  have hk := I.got hj rfl
  have e : A ++ B = (X.map Prod.snd ++ n :: Y.map Prod.snd) ++ k :: Z.map Prod.snd := by rw [← I.hq]; simp
  have nd := (List.nodup_append.1 I.links.nd).1
  rcases split_at e with ⟨Y1, h1, _⟩ | ⟨X2, h1, h2⟩
  · have hn : n ∈ A := by rw [h1]; simp
    have hall : ∀ z ∈ A, s.mem.cls z = code false := by
      rcases I.grant.kind with ⟨z, hz⟩ | hh
      · rw [hz] at h1
        have := congrArg List.length h1
        simp at this
        omega
      · exact hh
    have hw := I.cls hj (w := w) rfl
    rw [hall k hk] at hw
    refine ⟨I.grant.gr n hn, hall n hn, ?_⟩
    cases w with
    | false => rfl
    | true => simp [code] at hw
  · rw [List.nodup_append] at nd
    exact absurd rfl (nd.2.2 k hk k (by rw [h2]; simp))

/-- C45: if moreover nobody gives up in the moment when the lock was given to them, the first request always has the lock -/
theorem C45_first_served_partial {s : Lock.St} {h : List (Nat × Nat)} {i n : Nat}
    (r : LRun (fun s a => !wakesEarly s a && !lateQuit s a) s ((i, n) :: h)) (hq : s.q = 0) : s.mem.wt n = 0 := by
  obtain ⟨m, A, B, R, I, hd⟩ := r.inv (by simp; intro s a h _; exact h)
  obtain ⟨rfl, _⟩ := I.calm hq
  have e : n :: h.map Prod.snd = A ++ B := by rw [← I.hq]; rfl
  have hA := hd (by simp) (by rw [← e]; simp)
  cases A with
  | nil => exact absurd rfl hA
  | cons a A =>
    simp only [List.cons_append, List.cons.injEq] at e
    rw [e.1]
    exact I.grant.gr a (by simp)

/-! ### What fails -/

/-- a schedule is followed -/
def follow (ok : Lock.St → Act → Bool) : List Act → Lock.St → Option Lock.St
  | [], s => some s
  | a :: l, s => if ok s a then (Lock.step a s).bind (follow ok l) else none

theorem follow_run {ok : Lock.St → Act → Bool} : ∀ l {s s' h}, LRun ok s h → follow ok l s = some s' → ∃ h', LRun ok s' h'
  | [], s, s', h, r, e => by cases e; exact ⟨h, r⟩
  | a :: l, s, s', h, r, e => by
    simp only [follow] at e
    split at e
    · rename_i ho
      obtain ⟨s1, e1, e2⟩ := Option.bind_eq_some_iff.1 e
      exact follow_run l (r.step ho e1) e2
    · cases e

namespace LWit
/-- what memory contains at first -/
def m0 : Mem := ⟨fun _ => 0, fun _ => 0, fun _ => 0, fun _ => 0, fun _ => 0, 0, 0⟩
/-- a whole section of process `i` with `k` stores -/
def sect (i k : Nat) : List Act := .cas i :: (List.replicate k (.write i) ++ [.unlock i])
/-- process 0 has the write lock, process 1 waits for it but does not sleep yet; 0 gives it back and stops before
FUTEX_WAKE; 1 gets the lock, 2 waits; 1 gives it back to 2 and asks again with the same node; then 0 wakes 1 -/
def twoWriters : List Act :=
  .start 0 true :: sect 0 6 ++ .look 0 :: .start 1 true :: sect 1 7 ++ .look 1 :: .finish 0 :: sect 0 4 ++
  .futex 1 :: .start 2 true :: sect 2 7 ++ .look 2 :: .futex 2 :: .finish 1 :: sect 1 4 ++ .wake 1 (some 2) ::
  .start 1 true :: sect 1 7 ++ .look 1 :: .futex 1 :: [.wake 0 (some 1)]
/-- process 0 has the write lock, 1 and 2 wait; the time of 1 is over, and before it leaves the queue the lock is given to it;
then 3 asks for the lock -/
def stall : List Act :=
  .start 0 true :: sect 0 6 ++ .look 0 :: .start 1 true :: sect 1 7 ++ .look 1 :: .futex 1 ::
  .start 2 false :: sect 2 7 ++ .look 2 :: .futex 2 :: .timeout 1 :: .finish 0 :: sect 0 4 ++ .wake 0 none ::
  sect 1 3 ++ .start 3 false :: sect 3 7 ++ .look 3 :: [.futex 3]

def isHeldW : Option PC → Bool
  | some (.held true _) => true
  | _ => false
def isBlocked : Option PC → Bool
  | some (.blocked _ _) => true
  | _ => false
def waits (s : Lock.St) : Option PC → Bool
  | some (.blocked _ n) => s.mem.wt n == 1
  | _ => false
def isIdle : Option PC → Bool
  | some .idle => true
  | _ => false
end LWit

open LWit

/-- C44, what fails: three processes and no signals; a late FUTEX_WAKE meets a process that waits with the same node again, and
two processes have the write lock -/
theorem C44_two_writers : ∃ s h n k, LRun (fun _ a => !isIntr a) s h ∧ s.pcs[1]? = some (.held true n) ∧
    s.pcs[2]? = some (.held true k) := by
  have e : ∃ s, follow (fun _ a => !isIntr a) twoWriters (Lock.init 64 3 m0) = some s ∧
      isHeldW s.pcs[1]? = true ∧ isHeldW s.pcs[2]? = true := by
    have h : ((follow (fun _ a => !isIntr a) twoWriters (Lock.init 64 3 m0)).map fun s =>
        isHeldW s.pcs[1]? && isHeldW s.pcs[2]?) = some true := by decide +kernel
    obtain ⟨s, h1, h2⟩ := Option.map_eq_some_iff.1 h
    exact ⟨s, h1, by simpa using h2⟩
  obtain ⟨s, e1, e2, e3⟩ := e
  obtain ⟨h, r⟩ := follow_run twoWriters (.init 64 3 m0 (by decide)) e1
  have get : ∀ i : Nat, isHeldW s.pcs[i]? = true → ∃ n, s.pcs[i]? = some (.held true n) := by
    intro i hi
    unfold isHeldW at hi
    split at hi
    · rename_i n hn; exact ⟨n, hn⟩
    · cases hi
  obtain ⟨n, hn⟩ := get 1 e2
  obtain ⟨k, hk⟩ := get 2 e3
  exact ⟨s, h, n, k, r, hn, hk⟩

/-- C45, what fails: without signals and early wake-ups, nobody has a lock or is about to do anything, but processes 2 and 3 sleep; the
request of 3 came after all others had left -/
theorem C45_stall : ∃ s h, LRun (fun s a => !wakesEarly s a && !isIntr a) s h ∧ s.q = 0 ∧ s.pcs.length = 4 ∧
    s.pcs[0]? = some .idle ∧ s.pcs[1]? = some .idle ∧ (∃ w n, s.pcs[2]? = some (.blocked w n) ∧ s.mem.wt n = 1) ∧
    (∃ w n, s.pcs[3]? = some (.blocked w n) ∧ s.mem.wt n = 1) := by
  let chk : Lock.St → Bool := fun s => s.q == 0 && s.pcs.length == 4 && isIdle s.pcs[0]? && isIdle s.pcs[1]? &&
    waits s s.pcs[2]? && waits s s.pcs[3]?
  have h : ((follow (fun s a => !wakesEarly s a && !isIntr a) stall (Lock.init 64 4 m0)).map chk) = some true := by
    decide +kernel
  obtain ⟨s, e1, e2⟩ := Option.map_eq_some_iff.1 h
  obtain ⟨h', r⟩ := follow_run stall (.init 64 4 m0 (by decide)) e1
  simp only [chk, Bool.and_eq_true, beq_iff_eq] at e2
  obtain ⟨⟨⟨⟨⟨h0, h1⟩, h2⟩, h3⟩, h4⟩, h5⟩ := e2
  have idle : ∀ i : Nat, isIdle s.pcs[i]? = true → s.pcs[i]? = some .idle := by
    intro i hi
    unfold isIdle at hi
    split at hi
    · assumption
    · cases hi
  have sl : ∀ i : Nat, waits s s.pcs[i]? = true → ∃ w n, s.pcs[i]? = some (.blocked w n) ∧ s.mem.wt n = 1 := by
    intro i hi
    unfold waits at hi
    split at hi
    · rename_i w n hn; exact ⟨w, n, hn, by simpa using hi⟩
    · cases hi
  exact ⟨s, h', r, h0, h1, idle 0 h2, idle 1 h3, sl 2 h4, sl 3 h5⟩

/-- runs that meet the hypotheses: one process has the write lock and two wait -/
example : ∃ s h, LRun (fun s a => !wakesEarly s a && !lateQuit s a) s h ∧ s.q = 0 ∧ isHeldW s.pcs[0]? ∧ isBlocked s.pcs[1]? ∧
    isBlocked s.pcs[2]? := by
  have h : ((follow (fun s a => !wakesEarly s a && !lateQuit s a) (stall.take 34) (Lock.init 64 3 m0)).map fun s =>
      s.q == 0 && isHeldW s.pcs[0]? && isBlocked s.pcs[1]? && isBlocked s.pcs[2]?) = some true := by decide +kernel
  obtain ⟨s, e1, e2⟩ := Option.map_eq_some_iff.1 h
  obtain ⟨h', r⟩ := follow_run _ (.init 64 3 m0 (by decide)) e1
  simp only [Bool.and_eq_true, beq_iff_eq] at e2
  exact ⟨s, h', r, e2.1.1.1, e2.1.1.2, e2.1.2, e2.2⟩

end Gkc.Props
