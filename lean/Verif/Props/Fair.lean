import Verif.Props.Queue
/- Property theorems C23: fairness of given clause selection. -/
namespace Gkc.Props
open Gkc.Queue

/-! ### One block -/

/-- a block with the pairs `L` in its priority queue -/
structure BlkOk (b : Block) (L : List (Nat × Nat)) : Prop where
  rep : Rep b.pq L
  keep : b.pq.maxKeep = 0
  given : b.given ≤ b.simple.length
  nz : ∀ c ∈ b.simple, c ≠ 0

/-- what does not change when picking from a block -/
def SameQ (b b' : Block) : Prop := b'.simple = b.simple ∧ b'.pratio = b.pratio ∧ b'.tratio = b.tratio

/-- the three ways picking from a block can go -/
inductive BPick (b : Block) (L : List (Nat × Nat)) : Option Nat → Block → List (Nat × Nat) → Prop
  | prior {c p L' b'} : TakesLightest L p c L' → SameQ b b' → b'.given = b.given → b.pcount < b.pratio →
      b'.pcount = b.pcount + 1 → b'.tcount = b.tcount + 1 → BPick b L (some c) b' L'
  | simple {c b'} : b.simple[b.given]? = some c → SameQ b b' → b'.given = b.given + 1 →
      b'.tcount = b.tcount + 1 → BPick b L (some c) b' L
  | none {b'} : b.given = b.simple.length → SameQ b b' → b'.given = b.given → b'.tcount = b.tcount →
      BPick b L none b' L

theorem pickSimple_spec {b : Block} {L} (h : BlkOk b L) :
    (∃ c, b.simple[b.given]? = some c ∧ pickSimple b = (some c, { b with given := b.given + 1, tcount := b.tcount + 1 })) ∨
    (b.given = b.simple.length ∧ pickSimple b = (none, b)) := by
  have := h.given
  by_cases h1 : b.given < b.simple.length
  · left
    refine ⟨b.simple[b.given], by simp [h1], ?_⟩
    rw [pickSimple]
    have := h.nz _ (List.getElem_mem h1)
    simp [h1, this]
  · right
    refine ⟨by omega, ?_⟩
    rw [pickSimple]; simp [h1]

theorem pickBlock_simple {b b0 : Block} {L} (h : BlkOk b L) (hs : SameQ b0 b) (hg : b.given = b0.given)
    (ht : b.tcount = b0.tcount) :
    ∃ r b', pickSimple b = (r, b') ∧ BlkOk b' L ∧ BPick b0 L r b' L := by
  obtain ⟨s1, s2, s3⟩ := hs
  rcases pickSimple_spec h with ⟨c, h1, h2⟩ | ⟨h1, h2⟩
  · refine ⟨_, _, h2, ⟨h.rep, h.keep, ?_, h.nz⟩, .simple (by rw [← s1, ← hg]; exact h1) ⟨s1, s2, s3⟩ ?_ ?_⟩
    · have : b.given < b.simple.length := by
        rcases List.getElem?_eq_some_iff.1 h1 with ⟨h, _⟩; exact h
      exact this
    · show b.given + 1 = _; rw [hg]
    · show b.tcount + 1 = _; rw [ht]
  · exact ⟨_, _, h2, h, .none (by rw [← s1, ← hg]; exact h1) ⟨s1, s2, s3⟩ hg ht⟩

theorem pickBlock_spec {b : Block} {L} (h : BlkOk b L) :
    ∃ r b' L', pickBlock b = some (r, b') ∧ BlkOk b' L' ∧ BPick b L r b' L' := by
  by_cases h1 : b.pcount < b.pratio
  · obtain ⟨r, q1, e1, k1, m1, ⟨rfl, rfl, r1⟩ | ⟨c, p, L', rfl, hl, r1⟩⟩ := pick_rep h.rep
    · obtain ⟨r, b', e2, h2, h3⟩ := pickBlock_simple (b := { b with pq := q1 }) (b0 := b)
        ⟨r1, k1.trans h.keep, h.given, h.nz⟩ ⟨rfl, rfl, rfl⟩ rfl rfl
      exact ⟨r, b', [], by simp [pickBlock, h1, e1, e2], h2, h3⟩
    · exact ⟨some c, { b with pq := q1, pcount := b.pcount + 1, tcount := b.tcount + 1 }, L',
        by simp only [pickBlock, h1, e1, if_true], ⟨r1, k1.trans h.keep, h.given, h.nz⟩,
        .prior hl ⟨rfl, rfl, rfl⟩ rfl h1 rfl rfl⟩
  · obtain ⟨r, b', e2, h2, h3⟩ := pickBlock_simple (b := { b with pcount := 0 }) (b0 := b) (L := L)
        ⟨h.rep, h.keep, h.given, h.nz⟩ ⟨rfl, rfl, rfl⟩ rfl rfl
    exact ⟨r, b', L, by simp [pickBlock, h1, e2], h2, h3⟩

/-! ### All blocks -/

/-- all blocks are well formed -/
def QsOk (s : Queues) (Ls : Nat → List (Nat × Nat)) : Prop := ∀ i, BlkOk (s.blk i) (Ls i)

/-- pairs of block `j` replaced -/
def put (Ls : Nat → List (Nat × Nat)) (j : Nat) (L : List (Nat × Nat)) : Nat → List (Nat × Nat) :=
  fun i => if i = j then L else Ls i

theorem QsOk.upd {s : Queues} {Ls} (h : QsOk s Ls) {j : Nat} {b : Block} {L} (hb : BlkOk b L) (n : Nat) :
    QsOk { s.upd j b with next := n } (put Ls j L) := by
  intro i
  by_cases e : i = j
  · simpa [Queues.upd, put, e] using hb
  · simpa [Queues.upd, put, e] using h i

theorem QsOk.upd_same {s : Queues} {Ls} (h : QsOk s Ls) {j : Nat} {b : Block} (hb : BlkOk b (Ls j)) (n : Nat) :
    QsOk { s.upd j b with next := n } Ls := by
  intro i
  by_cases e : i = j
  · subst e; simpa [Queues.upd] using hb
  · simpa [Queues.upd, e] using h i

theorem BlkOk.tc {b : Block} {L} (h : BlkOk b L) (t : Int) : BlkOk { b with tcount := t } L := ⟨h.rep, h.keep, h.given, h.nz⟩

/-- distance from block `x` forward to block `b`, in the cycle of four -/
def dist (x b : Nat) : Nat := (b + 4 - x) % 4

/-- `s'` comes from `s` by a successful pick of `c` from block `j` -/
structure Picked (s : Queues) (Ls : Nat → List (Nat × Nat)) (c : Nat) (s' : Queues) (Ls' : Nat → List (Nat × Nat)) (j : Nat) : Prop where
  lt : j < 4
  step : (∃ p L', TakesLightest (Ls j) p c L' ∧ Ls' = put Ls j L' ∧ (s'.blk j).given = (s.blk j).given) ∨
    ((s.blk j).simple[(s.blk j).given]? = some c ∧ Ls' = Ls ∧ (s'.blk j).given = (s.blk j).given + 1)
  simple : ∀ i, (s'.blk i).simple = (s.blk i).simple
  given : ∀ i, i ≠ j → (s'.blk i).given = (s.blk i).given

theorem loop_total {first : Nat} (hf : first < 4) {Ls} : ∀ (n : Nat) (s : Queues) (flag : Bool) (nr : Nat), QsOk s Ls → nr < 4 →
    s.next = nr → (flag = true → nr ≤ first) → (if flag then first - nr + 1 else 5 - nr + first) ≤ n →
    ∃ r s' Ls', pickLoopQ s first n flag nr = .ok r s' ∧ QsOk s' Ls' ∧ s'.next ≤ 4 ∧
      ((r = none ∧ Ls' = Ls ∧ ∀ i, (s'.blk i).simple = (s.blk i).simple ∧ (s'.blk i).given = (s.blk i).given) ∨
       ∃ c j, r = some c ∧ Picked s Ls c s' Ls' j) := by
  intro n
  induction n with
  | zero => intro s flag nr _ _ _ _ hn; cases flag <;> simp at hn; omega
  | succ n ih =>
    intro s flag nr hs hnr hnext hfl hn
    simp only [pickLoopQ]
    by_cases h0 : (flag && nr == first) = true
    · rw [if_pos h0]
      exact ⟨_, _, _, rfl, hs, by omega, Or.inl ⟨rfl, rfl, fun i => ⟨rfl, rfl⟩⟩⟩
    · rw [if_neg h0]
      obtain ⟨r, b', L', e, hb, hp⟩ := pickBlock_spec (hs nr)
      rw [e]
      cases r with
      | some c =>
        have hsim : b'.simple = (s.blk nr).simple := by
          cases hp with
          | prior _ h => exact h.1
          | simple _ h => exact h.1
        have key : ∀ (t : Int) (m : Nat), Picked s Ls c { s.upd nr { b' with tcount := t } with next := m } (put Ls nr L') nr := by
          intro t m
          refine ⟨hnr, ?_, ?_, ?_⟩
          · cases hp with
            | prior h1 _ h3 => exact Or.inl ⟨_, _, h1, rfl, by simp [Queues.upd, h3]⟩
            | simple h1 _ h3 =>
              refine Or.inr ⟨h1, ?_, by simp [Queues.upd, h3]⟩
              funext i
              by_cases e : i = nr <;> simp [put, e]
          · intro i
            by_cases e : i = nr
            · simp [Queues.upd, e, hsim]
            · simp [Queues.upd, e]
          · intro i hi; simp [Queues.upd, hi]
        simp only
        split
        · exact ⟨_, _, _, rfl, hs.upd (hb.tc 0) _, by simp; omega, Or.inr ⟨c, nr, rfl, key _ _⟩⟩
        · exact ⟨_, _, _, rfl, hs.upd (hb.tc _) s.next, by simp [Queues.upd]; omega, Or.inr ⟨c, nr, rfl, key _ s.next⟩⟩
      | none =>
        simp only
        have hL : L' = Ls nr ∧ b'.simple = (s.blk nr).simple ∧ b'.given = (s.blk nr).given := by
          cases hp with
          | none h1 h2 h3 h4 => exact ⟨rfl, h2.1, h3⟩
        obtain ⟨rfl, hb2, hb3⟩ := hL
        have hflag' : (flag = true → nr < first) := by
          intro hft
          have h1 := hfl hft
          have : nr ≠ first := by rintro rfl; simp [hft] at h0
          omega
        generalize hw : (decide (nr + 1 ≥ nBlocks) || decide (1 + nr * 10 ≥ 40)) = w
        have hw' : w = true ↔ nr = 3 := by
          rw [← hw]; simp [nBlocks]; omega
        have hih := ih { s.upd nr b' with next := if w then 0 else nr + 1 } (flag || w) (if w then 0 else nr + 1)
          (hs.upd_same hb _) ?_ rfl ?_ ?_
        · obtain ⟨r, s', Ls', h1, h2, h3, h4⟩ := hih
          refine ⟨r, s', Ls', h1, h2, h3, ?_⟩
          have hs0 : ∀ i, ((s.upd nr b').blk i).simple = (s.blk i).simple ∧ ((s.upd nr b').blk i).given = (s.blk i).given := by
            intro i
            by_cases e : i = nr
            · simp [Queues.upd, e, hb2, hb3]
            · simp [Queues.upd, e]
          rcases h4 with ⟨rfl, rfl, h5⟩ | ⟨c, j, rfl, h5⟩
          · exact Or.inl ⟨rfl, rfl, fun i => ⟨(h5 i).1.trans (hs0 i).1, (h5 i).2.trans (hs0 i).2⟩⟩
          · refine Or.inr ⟨c, j, rfl, h5.lt, ?_, fun i => (h5.simple i).trans (hs0 i).1, fun i hi => (h5.given i hi).trans (hs0 i).2⟩
            rcases h5.step with ⟨p, L', h6, h7, h8⟩ | ⟨h6, h7, h8⟩
            · exact Or.inl ⟨p, L', h6, h7, h8.trans (hs0 j).2⟩
            · refine Or.inr ⟨?_, h7, ?_⟩
              · rw [← (hs0 j).1, ← (hs0 j).2]; exact h6
              · rw [← (hs0 j).2]; exact h8
        · cases w <;> simp at hw' ⊢; omega
        · intro hfw
          cases w
          · simp at hfw ⊢; have := hflag' hfw; omega
          · simp
        · cases w
          · have : nr ≠ 3 := by simpa using hw'
            cases flag
            · simp at hn ⊢; omega
            · have := hflag' rfl
              simp at hn ⊢; omega
          · have : nr = 3 := by simpa using hw'
            cases flag
            · simp at hn ⊢; omega
            · have := hflag' rfl; omega

/-- C23 part: picking never goes wrong and takes from one of the queues -/
theorem pickQ_total {s : Queues} {Ls} (h : QsOk s Ls) (hn : s.next ≤ 4) :
    ∃ r s' Ls', pickQ s = .ok r s' ∧ QsOk s' Ls' ∧ s'.next ≤ 4 ∧
      ((r = none ∧ Ls' = Ls ∧ ∀ i, (s'.blk i).simple = (s.blk i).simple ∧ (s'.blk i).given = (s.blk i).given) ∨
       ∃ c j, r = some c ∧ Picked s Ls c s' Ls' j) := by
  unfold pickQ
  by_cases h4 : s.next ≥ nBlocks
  · simp only [h4, if_true]
    obtain ⟨r, s', Ls', h1, h2, h3, h5⟩ := loop_total (first := 0) (by omega) (2 * nBlocks) { s with next := 0 } false 0 h
      (by omega) rfl (by simp) (by simp [nBlocks])
    refine ⟨r, s', Ls', h1, h2, h3, ?_⟩
    rcases h5 with h5 | ⟨c, j, h5, h6⟩
    · exact Or.inl h5
    · exact Or.inr ⟨c, j, h5, h6.lt, h6.step, h6.simple, h6.given⟩
  · simp only [h4, if_false]
    have h5 : s.next < 4 := by simp [nBlocks] at h4; omega
    exact loop_total h5 _ s false s.next h h5 rfl (by simp) (by simp [nBlocks]; omega)

/-! ### Progress towards a waiting clause -/

/-- remaining picks from the priority queue of block `b` before its simple queue is tried -/
def m2 (s : Queues) (b : Nat) : Nat := ((s.blk b).pratio - (s.blk b).pcount).toNat
/-- blocks to go before block `b` -/
def m3 (s : Queues) (b : Nat) : Nat := dist (s.next % 4) b
/-- bound on further picks from the current block -/
def m4 (s : Queues) : Nat := ((s.blk (s.next % 4)).tratio - (s.blk (s.next % 4)).tcount).toNat

/-- the measure has become smaller -/
def Less (s' s : Queues) (b : Nat) : Prop :=
  m2 s' b < m2 s b ∨ (m2 s' b = m2 s b ∧ (m3 s' b < m3 s b ∨ (m3 s' b = m3 s b ∧ m4 s' < m4 s)))

theorem loop_progress {first b : Nat} (hf : first < 4) (hb : b < 4) {s0 : Queues} (h0 : s0.next % 4 = first) {Ls} :
    ∀ (n : Nat) (s : Queues) (flag : Bool) (nr : Nat), QsOk s Ls → nr < 4 → s.next = nr → s.blk b = s0.blk b →
    (s.blk b).given < (s.blk b).simple.length →
    ((nr = first ∧ flag = false ∧ s.blk nr = s0.blk nr) ∨ dist nr b < dist first b) → dist nr b < n →
    ∃ c s', pickLoopQ s first n flag nr = .ok (some c) s' ∧
      (((s0.blk b).simple[(s0.blk b).given]? = some c ∧ (s'.blk b).given = (s0.blk b).given + 1) ∨
       ((s'.blk b).given = (s0.blk b).given ∧ Less s' s0 b)) := by
  intro n
  induction n with
  | zero => intro s flag nr _ _ _ _ _ _ hn; omega
  | succ n ih =>
    intro s flag nr hs hnr hnext hsb hwait hpos hn
    simp only [pickLoopQ]
    have h1 : ¬ (flag && nr == first) = true := by
      rcases hpos with ⟨_, rfl, _⟩ | h
      · simp
      · intro e
        simp at e
        rw [e.2] at h; omega
    rw [if_neg h1]
    obtain ⟨r, b', L', e, hbk, hp⟩ := pickBlock_spec (hs nr)
    rw [e]
    cases r with
    | none =>
      simp only
      have hgl : (s.blk nr).given = (s.blk nr).simple.length := by
        cases hp with
        | none h1 => exact h1
      have hne : b ≠ nr := by rintro rfl; omega
      have hL : L' = Ls nr := by cases hp; rfl
      subst hL
      generalize hw : (decide (nr + 1 ≥ nBlocks) || decide (1 + nr * 10 ≥ 40)) = w
      have hw' : w = true ↔ nr = 3 := by rw [← hw]; simp [nBlocks]; omega
      have hd : dist (if w then 0 else nr + 1) b < dist nr b := by
        cases w
        · have : nr ≠ 3 := by simpa using hw'
          simp [dist]; omega
        · have : nr = 3 := by simpa using hw'
          simp [dist]; omega
      have hle : dist nr b ≤ dist first b := by
        rcases hpos with ⟨rfl, _⟩ | h <;> omega
      refine ih { s.upd nr b' with next := if w then 0 else nr + 1 } (flag || w) _ (hs.upd_same hbk _) ?_ rfl ?_ ?_
        (Or.inr (by omega)) (by omega)
      · cases w <;> simp at hw' ⊢; omega
      · simp [Queues.upd, hne, hsb]
      · simpa [Queues.upd, hne] using hwait
    | some c =>
      simp only
      by_cases hnb : nr = b
      · subst hnb
        cases hp with
        | prior h1 h2 h3 h4 h5 h6 =>
          have key : ∀ (t : Int) (m : Nat), Less { s.upd nr { b' with tcount := t } with next := m } s0 nr := by
            intro t m
            left
            simp only [m2, Queues.upd, if_true]
            rw [h5, h2.2.1, hsb]
            rw [hsb] at h4
            omega
          split
          · exact ⟨c, _, rfl, Or.inr ⟨by simp [Queues.upd, h3, hsb], key _ _⟩⟩
          · exact ⟨c, _, rfl, Or.inr ⟨by simp [Queues.upd, h3, hsb], key _ s.next⟩⟩
        | simple h1 h2 h3 h4 =>
          split
          · exact ⟨c, _, rfl, Or.inl ⟨by rw [← hsb]; exact h1, by simp [Queues.upd, h3, hsb]⟩⟩
          · exact ⟨c, _, rfl, Or.inl ⟨by rw [← hsb]; exact h1, by simp [Queues.upd, h3, hsb]⟩⟩
      · have hbn : b ≠ nr := fun e => hnb e.symm
        have ht : b'.tcount = (s.blk nr).tcount + 1 ∧ b'.tratio = (s.blk nr).tratio := by
          cases hp with
          | prior h1 h2 h3 h4 h5 h6 => exact ⟨h6, h2.2.2⟩
          | simple h1 h2 h3 h4 => exact ⟨h4, h2.2.2⟩
        have hd0 : 0 < dist nr b := by simp [dist]; omega
        split
        · refine ⟨c, _, rfl, Or.inr ⟨by simp [Queues.upd, hbn, hsb], Or.inr ⟨by simp [m2, Queues.upd, hbn, hsb], Or.inl ?_⟩⟩⟩
          have hle : dist nr b ≤ dist first b := by
            rcases hpos with ⟨rfl, _⟩ | h <;> omega
          simp only [m3, h0, hnext]
          have : dist ((nr + 1) % 4) b < dist nr b := by simp [dist] at hd0 ⊢; omega
          omega
        · rename_i hlt
          refine ⟨c, _, rfl, Or.inr ⟨by simp [Queues.upd, hbn, hsb], Or.inr ⟨by simp [m2, Queues.upd, hbn, hsb], ?_⟩⟩⟩
          have hnr4 : s.next % 4 = nr := by omega
          rcases hpos with ⟨rfl, _, he⟩ | h
          · right
            refine ⟨by simp [m3, Queues.upd, hnr4, h0], ?_⟩
            simp only [m4, Queues.upd, hnr4, h0, if_true]
            rw [ht.1, ht.2] at hlt
            rw [ht.1, ht.2, ← he]
            omega
          · left
            simpa [m3, Queues.upd, hnr4, h0] using h

theorem pickQ_progress {s : Queues} {Ls} (h : QsOk s Ls) (hn : s.next ≤ 4) {b : Nat} (hb : b < 4)
    (hwait : (s.blk b).given < (s.blk b).simple.length) :
    ∃ c s', pickQ s = .ok (some c) s' ∧
      (((s.blk b).simple[(s.blk b).given]? = some c ∧ (s'.blk b).given = (s.blk b).given + 1) ∨
       ((s'.blk b).given = (s.blk b).given ∧ Less s' s b)) := by
  have hdl : ∀ x y, dist x y < 4 := fun x y => by simp [dist]; omega
  unfold pickQ
  by_cases h4 : s.next ≥ nBlocks
  · simp only [h4, if_true]
    have h5 : s.next = 4 := by simp [nBlocks] at h4; omega
    exact loop_progress (first := 0) (by omega) hb (s0 := s) (by omega) _ { s with next := 0 } false 0 h (by omega) rfl rfl hwait
      (Or.inl ⟨rfl, rfl, rfl⟩) (by have := hdl 0 b; simp [nBlocks]; omega)
  · simp only [h4, if_false]
    have h5 : s.next < 4 := by simp [nBlocks] at h4; omega
    exact loop_progress h5 hb (s0 := s) (by omega) _ s false s.next h h5 rfl rfl hwait
      (Or.inl ⟨rfl, rfl, rfl⟩) (by have := hdl s.next b; simp [nBlocks]; omega)

/-! ### Runs -/

/-- operations on the queues: push clause `c` of some weight to block `i`, or pick -/
inductive QsOp
  | push (i c : Nat) (w : Int)
  | pick

/-- an operation that the prover can do -/
def QsOp.Valid : QsOp → Prop
  | .push i c _ => i < 4 ∧ c ≠ 0
  | .pick => True

/-- `st` are the states and `out` the picked clauses of an infinite run doing `ops` on newly
created queues -/
structure Run (junk : Nat → Nat) (ratio : Int) (qs : Bool) (ops : Nat → QsOp) (st : Nat → Queues) (out : Nat → Option Nat) : Prop where
  init : st 0 = create ratio qs
  push : ∀ n i c w, ops n = .push i c w → pushQ junk (st n) i c w = some (st (n + 1)) ∧ out n = none
  pick : ∀ n, ops n = .pick → pickQ (st n) = .ok (out n) (st (n + 1))

theorem create_ok (ratio : Int) (qs : Bool) : QsOk (create ratio qs) (fun _ => []) :=
  fun _ => ⟨rep_make _, rfl, Nat.le_refl _, by intro c h; cases h⟩

/-- effect of a push -/
structure Pushed (s : Queues) (Ls : Nat → List (Nat × Nat)) (i c : Nat) (s' : Queues) (Ls' : Nat → List (Nat × Nat)) : Prop where
  ok : QsOk s' Ls'
  next : s'.next = s.next
  simple : (s'.blk i).simple = (s.blk i).simple ++ [c]
  same : ∀ j, j ≠ i → s'.blk j = s.blk j
  nums : (s'.blk i).given = (s.blk i).given ∧ (s'.blk i).pratio = (s.blk i).pratio ∧ (s'.blk i).pcount = (s.blk i).pcount ∧
    (s'.blk i).tratio = (s.blk i).tratio ∧ (s'.blk i).tcount = (s.blk i).tcount
  pairs : Ls' = Ls ∨ ∃ p, Ls' = put Ls i (Ls i ++ [(p, c)])

theorem pushQ_spec {junk : Nat → Nat} {s : Queues} {Ls} (h : QsOk s Ls) {i c : Nat} (hc : c ≠ 0) (w : Int) :
    ∃ s' Ls', pushQ junk s i c w = some s' ∧ Pushed s Ls i c s' Ls' := by
  have hb := h i
  have hnz : ∀ d ∈ (s.blk i).simple ++ [c], d ≠ 0 := by
    intro d hd
    rcases List.mem_append.1 hd with hd | hd
    · exact hb.nz d hd
    · simp at hd; subst hd; exact hc
  have hg : (s.blk i).given ≤ ((s.blk i).simple ++ [c]).length := by have := hb.given; simp; omega
  by_cases hw : w ≥ 0
  · obtain ⟨n, rfl⟩ : ∃ n : Nat, w = n := ⟨w.toNat, by omega⟩
    obtain ⟨q1, e1, r1, k1, m1⟩ := push_rep (junk := junk) hb.rep hb.keep hc n
    refine ⟨s.upd i { s.blk i with simple := (s.blk i).simple ++ [c], pq := q1 }, put Ls i (Ls i ++ [(min n (s.blk i).pq.maxPrior, c)]),
      by simp [pushQ, pushBlock, e1], ?_, rfl, by simp [Queues.upd], fun j hj => by simp [Queues.upd, hj],
      by simp [Queues.upd], Or.inr ⟨_, rfl⟩⟩
    exact h.upd (b := { s.blk i with simple := (s.blk i).simple ++ [c], pq := q1 }) ⟨r1, k1, hg, hnz⟩ s.next
  · refine ⟨s.upd i { s.blk i with simple := (s.blk i).simple ++ [c] }, Ls,
      by simp [pushQ, pushBlock, hw], ?_, rfl, by simp [Queues.upd], fun j hj => by simp [Queues.upd, hj],
      by simp [Queues.upd], Or.inl rfl⟩
    exact h.upd_same (b := { s.blk i with simple := (s.blk i).simple ++ [c] }) ⟨hb.rep, hb.keep, hg, hnz⟩ s.next

theorem Pushed.less {s s' : Queues} {Ls Ls' i c} (h : Pushed s Ls i c s' Ls') (b : Nat) :
    m2 s' b = m2 s b ∧ m3 s' b = m3 s b ∧ m4 s' = m4 s := by
  have key : ∀ j, (s'.blk j).pratio = (s.blk j).pratio ∧ (s'.blk j).pcount = (s.blk j).pcount ∧
    (s'.blk j).tratio = (s.blk j).tratio ∧ (s'.blk j).tcount = (s.blk j).tcount := by
    intro j
    by_cases e : j = i
    · subst e; exact h.nums.2
    · rw [h.same j e]; simp
  refine ⟨?_, ?_, ?_⟩
  · simp [m2, (key b).1, (key b).2.1]
  · simp [m3, h.next]
  · simp [m4, h.next, (key _).2.2.1, (key _).2.2.2]

theorem run_ok {junk ratio qs ops st out} (hr : Run junk ratio qs ops st out) (hv : ∀ n, (ops n).Valid) :
    ∀ n, ∃ Ls, QsOk (st n) Ls ∧ (st n).next ≤ 4 := by
  intro n
  induction n with
  | zero => exact ⟨_, by rw [hr.init]; exact create_ok ratio qs, by rw [hr.init]; simp [create]⟩
  | succ n ih =>
    obtain ⟨Ls, h, hn⟩ := ih
    cases e : ops n with
    | push i c w =>
      have hc := hv n
      rw [e] at hc
      obtain ⟨s', Ls', h1, h2⟩ := pushQ_spec (junk := junk) h (i := i) hc.2 w
      have := (hr.push n i c w e).1
      rw [h1] at this
      cases this
      exact ⟨Ls', h2.ok, by rw [h2.next]; exact hn⟩
    | pick =>
      obtain ⟨r, s', Ls', h1, h2, h3, _⟩ := pickQ_total h hn
      have := hr.pick n e
      rw [h1] at this
      cases this
      exact ⟨Ls', h2, h3⟩

/-- the next state and answer -/
noncomputable def nextQ (junk : Nat → Nat) (s : Queues) : QsOp → Queues × Option Nat
  | .push i c w => ((pushQ junk s i c w).getD s, none)
  | .pick => match pickQ s with
    | .ok r s' => (s', r)
    | _ => (s, none)

/-- states of a run -/
noncomputable def states (junk : Nat → Nat) (ratio : Int) (qs : Bool) (ops : Nat → QsOp) : Nat → Queues
  | 0 => create ratio qs
  | n + 1 => (nextQ junk (states junk ratio qs ops n) (ops n)).1

/-- C23: every sequence of pushes and picks can be carried out: no step accesses memory outside
the queues and the search over the blocks ends. -/
theorem C23_never_stuck (junk : Nat → Nat) (ratio : Int) (qs : Bool) (ops : Nat → QsOp) (hv : ∀ n, (ops n).Valid) :
    ∃ st out, Run junk ratio qs ops st out := by
  have hok : ∀ n, ∃ Ls, QsOk (states junk ratio qs ops n) Ls ∧ (states junk ratio qs ops n).next ≤ 4 := by
    intro n
    induction n with
    | zero => exact ⟨_, create_ok ratio qs, by simp [states, create]⟩
    | succ n ih =>
      obtain ⟨Ls, h, hn⟩ := ih
      simp only [states]
      cases e : ops n with
      | push i c w =>
        have hc := hv n
        rw [e] at hc
        obtain ⟨s', Ls', h1, h2⟩ := pushQ_spec (junk := junk) h (i := i) hc.2 w
        exact ⟨Ls', by simp [nextQ, h1, h2.ok], by simp [nextQ, h1, h2.next]; exact hn⟩
      | pick =>
        obtain ⟨r, s', Ls', h1, h2, h3, _⟩ := pickQ_total h hn
        exact ⟨Ls', by simp [nextQ, h1, h2], by simp [nextQ, h1, h3]⟩
  refine ⟨states junk ratio qs ops, fun n => (nextQ junk (states junk ratio qs ops n) (ops n)).2, rfl, ?_, ?_⟩
  · intro n i c w e
    obtain ⟨Ls, h, hn⟩ := hok n
    have hc := hv n
    rw [e] at hc
    obtain ⟨s', Ls', h1, h2⟩ := pushQ_spec (junk := junk) h (i := i) hc.2 w
    simp only [states, e, nextQ, h1]
    exact ⟨rfl, trivial⟩
  · intro n e
    obtain ⟨Ls, h, hn⟩ := hok n
    obtain ⟨r, s', Ls', h1, h2, h3, _⟩ := pickQ_total h hn
    simp only [states, e, nextQ, h1]

theorem wait_step {junk ratio qs ops st out} (hr : Run junk ratio qs ops st out) (hv : ∀ n, (ops n).Valid) {n b : Nat} (hb : b < 4)
    {P c : Nat} (hP : (((st n).blk b).simple)[P]? = some c) (hg : ((st n).blk b).given ≤ P) :
    (out n = some c ∧ ops n = .pick) ∨ ((((st (n + 1)).blk b).simple)[P]? = some c ∧ ((st (n + 1)).blk b).given ≤ P ∧
      (ops n = .pick → ((st (n + 1)).blk b).given = ((st n).blk b).given + 1 ∨
        (((st (n + 1)).blk b).given = ((st n).blk b).given ∧ Less (st (n + 1)) (st n) b)) ∧
      (ops n ≠ .pick → ((st (n + 1)).blk b).given = ((st n).blk b).given ∧ m2 (st (n + 1)) b = m2 (st n) b ∧
        m3 (st (n + 1)) b = m3 (st n) b ∧ m4 (st (n + 1)) = m4 (st n))) := by
  obtain ⟨Ls, h, hn⟩ := run_ok hr hv n
  have hlt : P < ((st n).blk b).simple.length := (List.getElem?_eq_some_iff.1 hP).1
  cases e : ops n with
  | push i d w =>
    right
    have hc := hv n
    rw [e] at hc
    obtain ⟨s', Ls', h1, h2⟩ := pushQ_spec (junk := junk) h (i := i) hc.2 w
    have := (hr.push n i d w e).1
    rw [h1] at this
    cases this
    have hgiven : ((st (n + 1)).blk b).given = ((st n).blk b).given := by
      by_cases e : b = i
      · subst e; exact h2.nums.1
      · rw [h2.same b e]
    refine ⟨?_, by omega, by simp, fun _ => ⟨hgiven, h2.less b⟩⟩
    by_cases e : b = i
    · subst e
      rw [h2.simple, List.getElem?_append_left hlt]; exact hP
    · rw [h2.same b e]; exact hP
  | pick =>
    obtain ⟨d, s', h1, h2⟩ := pickQ_progress h hn hb (by omega)
    obtain ⟨r, s'', Ls', h1', _, _, h3⟩ := pickQ_total h hn
    rw [h1] at h1'
    cases h1'
    have h4 := hr.pick n e
    rw [h1] at h4
    injection h4 with h4 h5
    subst h5
    have hsimple : ((st (n + 1)).blk b).simple = ((st n).blk b).simple := by
      rcases h3 with ⟨h, _⟩ | ⟨_, _, _, h⟩
      · cases h
      · exact h.simple b
    rcases h2 with ⟨h5, h6⟩ | ⟨h5, h6⟩
    · by_cases h7 : ((st n).blk b).given = P
      · left
        rw [h7, hP] at h5
        exact ⟨by rw [← h4, h5], rfl⟩
      · right
        exact ⟨by rw [hsimple]; exact hP, by omega, fun _ => Or.inl h6, fun h => absurd rfl h⟩
    · right
      exact ⟨by rw [hsimple]; exact hP, by omega, fun _ => Or.inr ⟨h5, h6⟩, fun h => absurd rfl h⟩

theorem wait_ends {junk ratio qs ops st out} (hr : Run junk ratio qs ops st out) (hv : ∀ n, (ops n).Valid)
    (hinf : ∀ n, ∃ m, n ≤ m ∧ ops m = .pick) {b : Nat} (hb : b < 4) {P c : Nat} :
    ∀ (a1 a2 a3 a4 : Nat) (n : Nat), (((st n).blk b).simple)[P]? = some c → ((st n).blk b).given ≤ P →
      P - ((st n).blk b).given = a1 → m2 (st n) b = a2 → m3 (st n) b = a3 → m4 (st n) = a4 → ∃ m, n ≤ m ∧ out m = some c := by
  intro a1
  induction a1 using Nat.strongRecOn with
  | ind a1 ih1 =>
  intro a2
  induction a2 using Nat.strongRecOn with
  | ind a2 ih2 =>
  intro a3
  induction a3 using Nat.strongRecOn with
  | ind a3 ih3 =>
  intro a4
  induction a4 using Nat.strongRecOn with
  | ind a4 ih4 =>
  intro n hP hg e1 e2 e3 e4
  -- go to the next pick
  obtain ⟨m, hm, hpick⟩ := hinf n
  have key : ∀ (k n : Nat), n + k = m → (((st n).blk b).simple)[P]? = some c → ((st n).blk b).given ≤ P →
      P - ((st n).blk b).given = a1 → m2 (st n) b = a2 → m3 (st n) b = a3 → m4 (st n) = a4 → ∃ m, n ≤ m ∧ out m = some c := by
    intro k
    induction k with
    | zero =>
      intro n hn hP hg e1 e2 e3 e4
      have hpn : ops n = .pick := by rw [← hpick, ← hn]; rfl
      rcases wait_step hr hv hb hP hg with ⟨h, _⟩ | ⟨hP', hg', hp, _⟩
      · exact ⟨n, Nat.le_refl n, h⟩
      · have fin : (∃ m, n + 1 ≤ m ∧ out m = some c) → ∃ m, n ≤ m ∧ out m = some c :=
          fun ⟨m, h1, h2⟩ => ⟨m, by omega, h2⟩
        rcases hp hpn with h | ⟨h, h5 | ⟨h5, h6 | ⟨h6, h7⟩⟩⟩
        · exact fin (ih1 _ (by omega) _ _ _ (n + 1) hP' hg' rfl rfl rfl rfl)
        · exact fin (ih2 _ (by omega) _ _ (n + 1) hP' hg' (by omega) rfl rfl rfl)
        · exact fin (ih3 _ (by omega) _ (n + 1) hP' hg' (by omega) (by omega) rfl rfl)
        · exact fin (ih4 _ (by omega) (n + 1) hP' hg' (by omega) (by omega) (by omega) rfl)
    | succ k ih =>
      intro n hn hP hg e1 e2 e3 e4
      rcases wait_step hr hv hb hP hg with ⟨h, _⟩ | ⟨hP', hg', hp, hq⟩
      · exact ⟨n, Nat.le_refl n, h⟩
      · have fin : (∃ m, n + 1 ≤ m ∧ out m = some c) → ∃ m, n ≤ m ∧ out m = some c :=
          fun ⟨m, h1, h2⟩ => ⟨m, by omega, h2⟩
        by_cases hpn : ops n = .pick
        · rcases hp hpn with h | ⟨h, h5 | ⟨h5, h6 | ⟨h6, h7⟩⟩⟩
          · exact fin (ih1 _ (by omega) _ _ _ (n + 1) hP' hg' rfl rfl rfl rfl)
          · exact fin (ih2 _ (by omega) _ _ (n + 1) hP' hg' (by omega) rfl rfl rfl)
          · exact fin (ih3 _ (by omega) _ (n + 1) hP' hg' (by omega) (by omega) rfl rfl)
          · exact fin (ih4 _ (by omega) (n + 1) hP' hg' (by omega) (by omega) (by omega) rfl)
        · obtain ⟨q1, q2, q3, q4⟩ := hq hpn
          exact fin (ih (n + 1) (by omega) hP' hg' (by omega) (by omega) (by omega) (by omega))
  exact key (m - n) n (by omega) hP hg e1 e2 e3 e4

/-! ### C23 -/

/-- C23: given clause selection is fair.  In every infinite run of pushes and picks with
infinitely many picks, for every ratio between the queues, a pushed clause is picked later,
whatever is pushed meanwhile and whatever its weight. -/
theorem C23_fair {junk ratio qs ops st out} (hr : Run junk ratio qs ops st out) (hv : ∀ n, (ops n).Valid)
    (hinf : ∀ n, ∃ m, n ≤ m ∧ ops m = .pick) {n i c : Nat} {w : Int} (hp : ops n = .push i c w) :
    ∃ m, n < m ∧ out m = some c := by
  obtain ⟨Ls, h, hn⟩ := run_ok hr hv n
  have hc := hv n
  rw [hp] at hc
  obtain ⟨s', Ls', h1, h2⟩ := pushQ_spec (junk := junk) h (i := i) hc.2 w
  have := (hr.push n i c w hp).1
  rw [h1] at this
  cases this
  have hg := (h i).given
  obtain ⟨m, hm, ho⟩ := wait_ends hr hv hinf hc.1 (P := ((st n).blk i).simple.length) (c := c) _ _ _ _ (n + 1)
    (by rw [h2.simple]; simp) (by rw [h2.nums.1]; exact hg) rfl rfl rfl rfl
  exact ⟨m, hm, ho⟩

/-- C23: a pick finds nothing only if every clause pushed before was already picked. -/
theorem C23_empty_only_when_all_picked {junk ratio qs ops st out} (hr : Run junk ratio qs ops st out) (hv : ∀ n, (ops n).Valid)
    {n : Nat} (hn : ops n = .pick) (ho : out n = none) {m i c : Nat} {w : Int} (hm : m < n) (hp : ops m = .push i c w) :
    ∃ k, m < k ∧ k < n ∧ out k = some c := by
  obtain ⟨Ls, h, _⟩ := run_ok hr hv m
  have hc := hv m
  rw [hp] at hc
  obtain ⟨s', Ls', h1, h2⟩ := pushQ_spec (junk := junk) h (i := i) hc.2 w
  have := (hr.push m i c w hp).1
  rw [h1] at this
  cases this
  have key : ∀ d, m + 1 + d ≤ n → (∃ k, m < k ∧ k < n ∧ out k = some c) ∨
      ((((st (m + 1 + d)).blk i).simple)[((st m).blk i).simple.length]? = some c ∧
        ((st (m + 1 + d)).blk i).given ≤ ((st m).blk i).simple.length) := by
    intro d
    induction d with
    | zero =>
      intro _
      right
      refine ⟨?_, ?_⟩
      · show (((st (m + 1)).blk i).simple)[((st m).blk i).simple.length]? = some c
        rw [h2.simple]; simp
      · show ((st (m + 1)).blk i).given ≤ _
        rw [h2.nums.1]; exact (h i).given
    | succ d ih =>
      intro hd
      rcases ih (by omega) with h3 | ⟨h3, h4⟩
      · exact Or.inl h3
      · rcases wait_step hr hv hc.1 h3 h4 with ⟨h5, _⟩ | ⟨h5, h6, _⟩
        · exact Or.inl ⟨m + 1 + d, by omega, by omega, h5⟩
        · exact Or.inr ⟨h5, h6⟩
  rcases key (n - (m + 1)) (by omega) with h3 | ⟨h3, h4⟩
  · exact h3
  · exfalso
    have e : m + 1 + (n - (m + 1)) = n := by omega
    rw [e] at h3 h4
    obtain ⟨Ls2, h5, h6⟩ := run_ok hr hv n
    have hlt := (List.getElem?_eq_some_iff.1 h3).1
    obtain ⟨d, s', h7, _⟩ := pickQ_progress h5 h6 hc.1 (by omega)
    have := hr.pick n hn
    rw [h7, ho] at this
    cases this

/-! ### No clause comes from nowhere, and none comes more than twice per push -/

/-- sum over the four blocks -/
def sum4 (f : Nat → Nat) : Nat := f 0 + f 1 + f 2 + f 3

theorem sum4_put {f g : Nat → Nat} {j : Nat} (hj : j < 4) (h : ∀ i, i ≠ j → g i = f i) : sum4 g + f j = sum4 f + g j := by
  have : j = 0 ∨ j = 1 ∨ j = 2 ∨ j = 3 := by omega
  rcases this with rfl | rfl | rfl | rfl
  · simp only [sum4, h 1 (by omega), h 2 (by omega), h 3 (by omega)]; omega
  · simp only [sum4, h 0 (by omega), h 2 (by omega), h 3 (by omega)]; omega
  · simp only [sum4, h 0 (by omega), h 1 (by omega), h 3 (by omega)]; omega
  · simp only [sum4, h 0 (by omega), h 1 (by omega), h 2 (by omega)]; omega

/-- occurrences of `c` still to come -/
def toCome (s : Queues) (Ls : Nat → List (Nat × Nat)) (c i : Nat) : Nat :=
  ((s.blk i).simple.drop (s.blk i).given).count c + ((Ls i).map (·.2)).count c

/-- number of times clause `c` was pushed in the first `n` steps -/
def pushes (ops : Nat → QsOp) (c : Nat) : Nat → Nat
  | 0 => 0
  | n + 1 => pushes ops c n + match ops n with
    | .push _ d _ => if d = c then 1 else 0
    | .pick => 0

/-- number of times clause `c` was picked in the first `n` steps -/
def picks (out : Nat → Option Nat) (c : Nat) : Nat → Nat
  | 0 => 0
  | n + 1 => picks out c n + if out n = some c then 1 else 0

theorem run_count {junk ratio qs ops st out} (hr : Run junk ratio qs ops st out) (hv : ∀ n, (ops n).Valid) (c : Nat) :
    ∀ n, ∃ Ls, QsOk (st n) Ls ∧ (st n).next ≤ 4 ∧ picks out c n + sum4 (toCome (st n) Ls c) ≤ 2 * pushes ops c n := by
  intro n
  induction n with
  | zero =>
    refine ⟨_, by rw [hr.init]; exact create_ok ratio qs, by rw [hr.init]; simp [create], ?_⟩
    rw [hr.init]
    simp [picks, pushes, toCome, sum4, create]
  | succ n ih =>
    obtain ⟨Ls, h, hn, hcount⟩ := ih
    cases e : ops n with
    | push i d w =>
      have hc := hv n
      rw [e] at hc
      obtain ⟨s', Ls', h1, h2⟩ := pushQ_spec (junk := junk) h (i := i) hc.2 w
      have := hr.push n i d w e
      rw [h1] at this
      obtain ⟨this, hout⟩ := this
      cases this
      refine ⟨Ls', h2.ok, by rw [h2.next]; exact hn, ?_⟩
      have hs : ((st (n + 1)).blk i).simple.drop ((st (n + 1)).blk i).given =
          ((st n).blk i).simple.drop ((st n).blk i).given ++ [d] := by
        rw [h2.simple, h2.nums.1, List.drop_append_of_le_length (h i).given]
      have hother : ∀ j, j ≠ i → toCome (st (n + 1)) Ls' c j = toCome (st n) Ls c j := by
        intro j hj
        simp only [toCome, h2.same j hj]
        rcases h2.pairs with hp | ⟨p, hp⟩
        · rw [hp]
        · rw [hp]; simp [put, hj]
      have hsum := sum4_put (f := toCome (st n) Ls c) (g := toCome (st (n + 1)) Ls' c) hc.1 hother
      have hi : toCome (st (n + 1)) Ls' c i ≤ toCome (st n) Ls c i + 2 * (if d = c then 1 else 0) := by
        simp only [toCome, hs, List.count_append, List.count_singleton, beq_iff_eq]
        rcases h2.pairs with hp | ⟨p, hp⟩
        · rw [hp]; split <;> omega
        · rw [hp]
          simp only [put, if_true, List.map_append, List.map_cons, List.map_nil, List.count_append, List.count_singleton, beq_iff_eq]
          split <;> omega
      simp only [picks, pushes, hout, e]
      have : ¬ (none : Option Nat) = some c := by simp
      simp only [this, if_false]
      omega
    | pick =>
      obtain ⟨r, s', Ls', h1, h2, h3, h4⟩ := pickQ_total h hn
      have := hr.pick n e
      rw [h1] at this
      injection this with this this2
      subst this; subst this2
      refine ⟨Ls', h2, h3, ?_⟩
      simp only [picks, pushes, e]
      rcases h4 with ⟨h5, rfl, h6⟩ | ⟨d, j, h5, h6⟩
      · have : sum4 (toCome (st (n + 1)) Ls' c) = sum4 (toCome (st n) Ls' c) := by
          have : toCome (st (n + 1)) Ls' c = toCome (st n) Ls' c := by
            funext i; simp only [toCome, (h6 i).1, (h6 i).2]
          rw [this]
        rw [h5]
        have : ¬ (none : Option Nat) = some c := by simp
        simp only [this, if_false]
        omega
      · rw [h5]
        have hother : ∀ i, i ≠ j → toCome (st (n + 1)) Ls' c i = toCome (st n) Ls c i := by
          intro i hi
          simp only [toCome, h6.simple i, h6.given i hi]
          rcases h6.step with ⟨p, L', _, hp, _⟩ | ⟨_, hp, _⟩
          · rw [hp]; simp [put, hi]
          · rw [hp]
        have hsum := sum4_put (f := toCome (st n) Ls c) (g := toCome (st (n + 1)) Ls' c) h6.lt hother
        have hj : toCome (st (n + 1)) Ls' c j + (if d = c then 1 else 0) = toCome (st n) Ls c j := by
          simp only [toCome, h6.simple j]
          rcases h6.step with ⟨p, L', ht, hp, hg⟩ | ⟨hs, hp, hg⟩
          · rw [hp, hg]
            simp only [put, if_true]
            rw [ht.perm.count_eq c, List.count_cons]
            simp only [beq_iff_eq]
            omega
          · rw [hp, hg]
            obtain ⟨hlt, hs⟩ := List.getElem?_eq_some_iff.1 hs
            rw [List.drop_eq_getElem_cons hlt, hs, List.count_cons]
            simp only [beq_iff_eq]
            omega
        simp only [Option.some.injEq]
        omega

/-- C23: every clause picked was pushed, and it is picked at most twice as often as it was
pushed. -/
theorem C23_picked_at_most_twice {junk ratio qs ops st out} (hr : Run junk ratio qs ops st out) (hv : ∀ n, (ops n).Valid)
    (c n : Nat) : picks out c n ≤ 2 * pushes ops c n := by
  obtain ⟨_, _, _, h⟩ := run_count hr hv c n
  omega

/-- answers of a finite run -/
def answers (junk : Nat → Nat) : Queues → List QsOp → Option (List (Option Nat))
  | _, [] => some []
  | s, .push i c w :: ops => (pushQ junk s i c w).bind fun s' => answers junk s' ops
  | s, .pick :: ops => match pickQ s with
    | .ok r s' => (answers junk s' ops).map (r :: ·)
    | _ => none

/-- Finding: a clause pushed once really is picked twice, once from each queue, as the marking of
given clauses is switched off (Reasoner/clstore.c:1405, 1439): clause 7 of weight 3. -/
theorem C23_picked_twice : answers (fun _ => 0) (create 5 false) [.push 3 7 3, .pick, .pick, .pick] =
    some [some 7, some 7, none] := by decide +kernel

/-- Runs with infinitely many picks exist: clause n+1 pushed in step 2n with weight n, picks in
between. -/
example : ∃ st out, Run (fun _ => 0) 5 true (fun n => if n % 2 = 0 then .push (n / 2 % 4) (n + 1) n else .pick) st out ∧
    ∀ n, ∃ m, n ≤ m ∧ (if m % 2 = 0 then QsOp.push (m / 2 % 4) (m + 1) m else .pick) = .pick := by
  obtain ⟨st, out, h⟩ := C23_never_stuck (fun _ => 0) 5 true
    (fun n => if n % 2 = 0 then .push (n / 2 % 4) (n + 1) n else .pick) (by
      intro n
      split
      · exact ⟨by omega, by omega⟩
      · trivial)
  exact ⟨st, out, h, fun n => ⟨2 * n + 1, by omega, by have : ¬ (2 * n + 1) % 2 = 0 := by omega
                                                       simp [this]⟩⟩

end Gkc.Props
