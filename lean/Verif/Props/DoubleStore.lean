import Verif.DoubleStore
import Verif.Props.Cuts
import Verif.Props.Rewrite
/- Property theorems C39: entries of the indexes keep denoting the clause they were entered for. -/
namespace Gkc.Props
open Gkc Term Store

theorem put_below {cell : Nat → Option Lit} {o i : Nat} {ls : List Lit} (h : i < o) : put cell o ls i = cell i := by
  simp [put]; omega

theorem put_at {cell : Nat → Option Lit} {o i : Nat} {ls : List Lit} (h : i < ls.length) : put cell o ls (o + i) = ls[i]? := by
  simp [put, h]

/-- an entry of a buffer that is never emptied still reads as entered and lies below the free part -/
def GoodEntry (m : Mem) (e : Entry) : Prop :=
  e.off + e.orig.length ≤ (m.buf e.reg).next ∧ ∀ i < e.orig.length, (m.buf e.reg).cell (e.off + i) = e.orig[i]?

/-- the regions that are never emptied -/
def Lasting (r : Region) : Prop := r = .queue ∨ r = .active

theorem set_other {m : Mem} {r r' : Region} {b : Buf} (h : r' ≠ r) : (m.set r b).buf r' = m.buf r' := by
  simp [Mem.set, h]

theorem set_same {m : Mem} {r : Region} {b : Buf} : (m.set r b).buf r = b := by simp [Mem.set]

theorem good_set {m : Mem} {r : Region} {ls : List Lit} {b : Buf} {e : Entry} (hn : (m.buf r).next ≤ b.next)
    (hb : b.cell = put (m.buf r).cell (m.buf r).next ls) (h : GoodEntry m e) : GoodEntry (m.set r b) e := by
  by_cases he : e.reg = r
  · subst he
    refine ⟨?_, fun i hi => ?_⟩
    · rw [set_same]; have := h.1; omega
    · rw [set_same, hb, put_below (by have := h.1; omega)]; exact h.2 i hi
  · refine ⟨?_, fun i hi => ?_⟩
    · rw [set_other he]; exact h.1
    · rw [set_other he]; exact h.2 i hi

theorem good_skip {m : Mem} {r : Region} {b : Buf} {e : Entry} (hr : e.reg ≠ r) (h : GoodEntry m e) : GoodEntry (m.set r b) e := by
  refine ⟨?_, fun i hi => ?_⟩
  · rw [set_other hr]; exact h.1
  · rw [set_other hr]; exact h.2 i hi

theorem lasting_given {r : Region} (h : Lasting r) : r ≠ .given ∧ r ≠ .derived := by
  rcases h with rfl | rfl <;> simp

theorem good_keep {m : Mem} {r : Region} {ls : List Lit} (h : ∀ e ∈ m.entries, Lasting e.reg → GoodEntry m e) :
    ∀ e ∈ (m.keep r ls).entries, Lasting e.reg → GoodEntry (m.keep r ls) e := by
  intro e he hl
  simp only [Mem.keep, List.mem_cons] at he
  rcases he with rfl | he
  · refine ⟨?_, fun i hi => ?_⟩
    · simp [Mem.keep, Mem.set, Buf.build]
    · have := put_at (cell := (m.buf r).cell) (o := (m.buf r).next) hi
      simpa [Mem.keep, Mem.set, Buf.build] using this
  · have := good_set (ls := ls) (b := (m.buf r).build ls) (by simp [Buf.build]) rfl (h e he hl)
    exact this

theorem entries_set {m : Mem} {r : Region} {b : Buf} : (m.set r b).entries = m.entries := rfl

theorem run_good {m : Mem} (op : Op) (h : ∀ e ∈ m.entries, Lasting e.reg → GoodEntry m e) :
    ∀ e ∈ (m.run op).entries, Lasting e.reg → GoodEntry (m.run op) e := by
  cases op with
  | derive ls => exact good_keep h
  | drop ls =>
    intro e he hl
    exact good_set (ls := ls) (by simp) rfl (h e he hl)
  | scratch ls =>
    intro e he hl
    obtain ⟨h1, h2⟩ := lasting_given hl
    exact good_skip h2 (good_skip h1 (good_skip h2 (h e he hl)))
  | pick =>
    intro e he hl
    exact good_skip (lasting_given hl).1 (h e he hl)
  | given origlen ls =>
    have h1 : ∀ e ∈ (m.reset .given).entries, Lasting e.reg → GoodEntry (m.reset .given) e :=
      fun e he hl => good_skip (lasting_given hl).1 (h e he hl)
    simp only [Mem.run]
    split
    · exact good_keep (good_keep h1)
    · exact good_keep (fun e he hl => good_skip (lasting_given hl).1 (h1 e he hl))

theorem runs_good (ops : List Op) : ∀ {m : Mem}, (∀ e ∈ m.entries, Lasting e.reg → GoodEntry m e) →
    ∀ e ∈ (ops.foldl Mem.run m).entries, Lasting e.reg → GoodEntry (ops.foldl Mem.run m) e := by
  induction ops with
  | nil => intro m h; exact h
  | cons op ops ih => intro m h; exact ih (run_good op h)

/-- C39 (partial): whatever the loop does, an index entry for a clause kept in `queue_termbuf` or
`active_termbuf` reads back the literals it was entered for.  Missing: the entries for given
clauses simplified to two literals, which point into `given_termbuf`, see
`C39_simplified_given_entry_changes`. -/
theorem C39_entries_keep_their_clause_partial (ops : List Op) (e : Entry)
    (he : e ∈ (ops.foldl Mem.run {}).entries) (hr : e.reg = .queue ∨ e.reg = .active) :
    (ops.foldl Mem.run {}).read e e.orig.length = e.orig.map some := by
  have := (runs_good ops (m := {}) (by simp) e he hr).2
  apply List.ext_getElem
  · simp [Mem.read]
  · intro i h1 h2
    simp only [Mem.read, List.length_map, List.length_range] at h1
    simp [Mem.read, this i h1, h1]

/-- no given clause was shortened to two literals by simplification -/
def NoShortGiven : Op → Prop
  | .given origlen ls => ls.length = 2 → origlen = 2
  | _ => True

theorem entries_lasting {ops : List Op} (h : ∀ op ∈ ops, NoShortGiven op) :
    ∀ {m : Mem}, (∀ e ∈ m.entries, Lasting e.reg) → ∀ e ∈ (ops.foldl Mem.run m).entries, Lasting e.reg := by
  induction ops with
  | nil => intro m hm; exact hm
  | cons op ops ih =>
    intro m hm
    refine ih (fun o ho => h o (.tail _ ho)) ?_
    have hop := h op (.head _)
    cases op with
    | derive ls =>
      intro e he
      simp only [Mem.run, Mem.keep, List.mem_cons] at he
      rcases he with rfl | he
      · exact .inl rfl
      · exact hm e he
    | drop ls => exact hm
    | scratch ls => exact hm
    | pick => exact hm
    | given origlen ls =>
      intro e he
      simp only [Mem.run] at he
      rw [if_neg (by rintro ⟨a, b⟩; exact a (b.trans (hop b).symm))] at he
      simp only [Mem.keep, List.mem_cons] at he
      rcases he with rfl | he
      · exact .inr rfl
      · exact hm e he

/-- C39 (partial): in a run in which simplification never shortens a given clause to two literals,
every index entry reads back the literals it was entered for. -/
theorem C39_all_entries_keep_their_clause_partial (ops : List Op) (h : ∀ op ∈ ops, NoShortGiven op) (e : Entry)
    (he : e ∈ (ops.foldl Mem.run {}).entries) : (ops.foldl Mem.run {}).read e e.orig.length = e.orig.map some :=
  C39_entries_keep_their_clause_partial ops e he (entries_lasting h (m := {}) (by simp) e he)

/-- propositional atom with a name -/
private def at0 (s : String) : Term := .app (.sym s) [.const (.sym "c")]

/-- a run: a derived clause, a given clause simplified from three to two literals, then another
given clause of three literals -/
def staleRun : List Op :=
  [.derive [⟨true, at0 "p"⟩, ⟨false, at0 "q"⟩], .given 3 [⟨false, at0 "p"⟩, ⟨false, at0 "q"⟩], .pick,
   .given 3 [⟨false, at0 "p"⟩, ⟨false, at0 "r"⟩, ⟨false, at0 "s"⟩]]

example : (∃ e ∈ (staleRun.foldl Mem.run {}).entries, e.reg = .queue ∧ e.orig.length = 2) ∧
    (∃ ops : List Op, ops ≠ [] ∧ ∀ op ∈ ops, NoShortGiven op) := by
  refine ⟨⟨_, .tail _ (.tail _ (.tail _ (.head _))), rfl, rfl⟩, [.derive [], .pick], by simp, by simp [NoShortGiven]⟩

/-- a structure in which only `q` and `s` are true of the constant -/
def staleFO : FO where
  D := Unit
  cst _ := ()
  fn _ _ := ()
  pr q _ := q = .sym "q" ∨ q = .sym "s"

/-- Finding: the entry for a given clause that simplification shortened to two literals points into
the buffer of the given clause (Reasoner/rgenloop.c:454-456), which is used again for the next one.
Entered for `p | q`, it reads `p | r` after `p | r | s` has been the given clause: two literals of
a longer clause.  The two-literal cut with what is read is wrong: in `staleFO` all clauses entered
are true and so is `-p | r | t`, but it is cut to `r | t`, which is false. -/
theorem C39_simplified_given_entry_changes :
    (∃ e ∈ (staleRun.foldl Mem.run {}).entries,
      e.orig = [⟨false, at0 "p"⟩, ⟨false, at0 "q"⟩] ∧
      (staleRun.foldl Mem.run {}).read e 2 = [some ⟨false, at0 "p"⟩, some ⟨false, at0 "r"⟩]) ∧
    (∀ e ∈ (staleRun.foldl Mem.run {}).entries, staleFO.holds e.orig) ∧
    (doubleCutCl (fun _ => 0) (fun _ a => if a = at0 "p" then [(⟨false, at0 "p"⟩, ⟨false, at0 "r"⟩)] else [])
        [⟨0, true, at0 "p"⟩, ⟨1, false, at0 "r"⟩, ⟨2, false, at0 "t"⟩]).map ALit.lit = [⟨false, at0 "r"⟩, ⟨false, at0 "t"⟩] ∧
    staleFO.holds [⟨true, at0 "p"⟩, ⟨false, at0 "r"⟩, ⟨false, at0 "t"⟩] ∧
    ¬ staleFO.holds [⟨false, at0 "r"⟩, ⟨false, at0 "t"⟩] := by
  refine ⟨⟨_, .tail _ (.tail _ (.head _)), rfl, rfl⟩, ?_, by decide +kernel, ?_, ?_⟩
  · intro e he
    have hc : ∃ l ∈ e.orig, l.neg = false ∧ (l.atom = at0 "q" ∨ l.atom = at0 "s") := by
      have : e ∈ [_, _, _, _] := he
      simp only [List.mem_cons, List.not_mem_nil, or_false] at this
      rcases this with rfl | rfl | rfl | rfl
      · exact ⟨_, .tail _ (.tail _ (.head _)), rfl, .inr rfl⟩
      · exact ⟨_, .tail _ (.head _), rfl, .inl rfl⟩
      · exact ⟨_, .tail _ (.head _), rfl, .inl rfl⟩
      · exact ⟨_, .tail _ (.head _), rfl, .inl rfl⟩
    obtain ⟨l, hl, hn, ha⟩ := hc
    intro ρ
    refine ⟨l, hl, ?_⟩
    rw [hn]
    rcases ha with h | h <;> rw [h]
    · exact .inl rfl
    · exact .inr rfl
  · intro ρ
    refine ⟨_, .head _, ?_⟩
    simp [FO.atom, at0, staleFO]
  · intro h
    obtain ⟨l, hl, h2⟩ := h (fun _ => ())
    simp only [List.mem_cons, List.not_mem_nil, or_false] at hl
    rcases hl with rfl | rfl <;> simp [FO.atom, at0, staleFO] at h2

end Gkc.Props
