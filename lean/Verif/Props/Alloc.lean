import Verif.AllocRun
import Mathlib.Data.List.Nodup
/-
C42: the allocator of records and strings.
-/
namespace Gkc.Props
open Gkc.Alloc

/-- The states an area goes through, with the objects (offset, number of words) that were given out and not
freed (`l`), and the objects that were not freed because an error was reported (`k`).  An object is written
to inside its words after the first.  Other areas of the segment are written to, and take parts of the segment,
at any time.  A free operation on a marked object is left out when the word before the object is half of
its offset (see `C42_free_refused`). -/
inductive ARun (hb : Nat) : St → List (Nat × Nat) → List (Nat × Nat) → Prop
  | init {mem : Nat → Nat} {fr sz : Nat} {s : St} (h8 : fr % 8 = 0) (h0 : 0 < fr) (hsz : sz ≤ 2 ^ 40)
      (h : Alloc.init hb mem fr sz = some s) : ARun hb s [] []
  | alloc {s s' : St} {l k : List (Nat × Nat)} {o n : Nat} (r : ARun hb s l k) (hn : n < 2 ^ 37)
      (h : Alloc.alloc hb s n = .ok o s') : ARun hb s' ((o, n) :: l) k
  | fail {s s' : St} {l k : List (Nat × Nat)} {n : Nat} (r : ARun hb s l k) (hn : n < 2 ^ 37)
      (h : Alloc.alloc hb s n = .fail s') : ARun hb s' l k
  | free {s s' : St} {l k : List (Nat × Nat)} {x : Nat × Nat} (r : ARun hb s l k) (hx : x ∈ l)
      (hc : s.mem x.1 % 4 = 0 ∨ 2 * (s.mem (x.1 - 8) / 4 * 4) ≠ x.1)
      (h : freeObj hb s x.1 = .ok s') : ARun hb s' (l.erase x) k
  | freeErr {s : St} {l k : List (Nat × Nat)} {x : Nat × Nat} {c : Nat} (r : ARun hb s l k) (hx : x ∈ l)
      (h : freeObj hb s x.1 = .err c) : ARun hb s (l.erase x) (x :: k)
  | write {s : St} {l k : List (Nat × Nat)} {x : Nat × Nat} {a v : Nat} (r : ARun hb s l k) (hx : x ∈ l)
      (h1 : x.1 + 8 ≤ a) (h2 : a < x.1 + 8 * x.2) : ARun hb (s.store a v) l k
  | other {s : St} {l k : List (Nat × Nat)} {mem : Nat → Nat} {fr : Nat} (r : ARun hb s l k)
      (hm : ∀ p ∈ s.subs, ∀ a, p.1 ≤ a → a < p.1 + p.2 → mem a = s.mem a) (h1 : s.free ≤ fr) (h2 : fr ≤ s.size)
      (h8 : fr % 8 = 0) : ARun hb { s with mem := mem, free := fr } l k

/-- the words of the objects are the same, and so is the recorded size of each of them -/
def Kept (l : List (Nat × Nat)) (s s' : St) : Prop :=
  ∀ x ∈ l, s'.mem x.1 / 8 = s.mem x.1 / 8 ∧ ∀ a, x.1 + 8 ≤ a → a < x.1 + 8 * x.2 → s'.mem a = s.mem a

/-- the objects do not overlap; each takes at least four words -/
def Apart (x y : Nat × Nat) : Prop := x.1 + 8 * max 4 x.2 ≤ y.1 ∨ y.1 + 8 * max 4 y.2 ≤ x.1

/-! ### The invariant of a run -/

structure RunInv (s : St) (l k : List (Nat × Nat)) (B : Map) (L : Nat → List Nat) : Prop where
  inv : Inv s B L
  noL : NoL B
  used : ∀ a n, B a = some (n, .used) ↔ ∃ m, (a, m) ∈ l ++ k ∧ n = usedBytes (8 * m)
  head : ∀ x ∈ l ++ k, s.mem x.1 / 4 = 2 * x.2
  keys : ((l ++ k).map Prod.fst).Nodup
  sub0 : 0 < s.subs.length

theorem key_inj {l : List (Nat × Nat)} (h : (l.map Prod.fst).Nodup) {x y : Nat × Nat} (hx : x ∈ l) (hy : y ∈ l)
    (he : x.1 = y.1) : x = y :=
  List.inj_on_of_nodup_map h hx hy he

theorem erase_append_mem {l k : List (Nat × Nat)} (h : ((l ++ k).map Prod.fst).Nodup) {x : Nat × Nat} (hx : x ∈ l)
    (y : Nat × Nat) : y ∈ l.erase x ++ k ↔ y.1 ≠ x.1 ∧ y ∈ l ++ k := by
  have hn : (l ++ k).Nodup := h.of_map
  have he : l.erase x ++ k = (l ++ k).erase x := (List.erase_append_left _ hx).symm
  rw [he, hn.mem_erase_iff]
  constructor
  · rintro ⟨h1, h2⟩
    exact ⟨fun h' => h1 (key_inj h h2 (List.mem_append_left _ hx) h'), h2⟩
  · rintro ⟨h1, h2⟩
    exact ⟨fun h' => h1 (h' ▸ rfl), h2⟩

theorem RunInv.block {s l k B L} (R : RunInv s l k B L) {x : Nat × Nat} (hx : x ∈ l ++ k) :
    B x.1 = some (max 32 (8 * x.2), .used) := by
  rw [← usedBytes_eq (by omega)]
  exact (R.used _ _).2 ⟨x.2, hx, rfl⟩

theorem Keeps.kept {s s' : St} {B : Map} (h : Keeps B s s') {l : List (Nat × Nat)}
    (hl : ∀ x ∈ l, B x.1 = some (max 32 (8 * x.2), .used)) : Kept l s s' := by
  intro x hx
  obtain ⟨h1, h2⟩ := h _ _ (hl x hx)
  exact ⟨by omega, fun a ha ha' => h2 a ha (by omega)⟩

theorem Keeps.head {s s' : St} {B : Map} (h : Keeps B s s') {x : Nat × Nat} {n} (hx : B x.1 = some (n, .used))
    (hh : s.mem x.1 / 4 = 2 * x.2) : s'.mem x.1 / 4 = 2 * x.2 := by
  rw [(h _ _ hx).1]; exact hh

theorem RunInv.alloc {s l k B L} (R : RunInv s l k B L) (hb : Nat) {n : Nat} (hn : n < 2 ^ 37) :
    (∃ o s' B' L', Alloc.alloc hb s n = .ok o s' ∧ RunInv s' ((o, n) :: l) k B' L' ∧ Keeps B s s') ∨
    (∃ s' B' L', Alloc.alloc hb s n = .fail s' ∧ RunInv s' l k B' L' ∧ Keeps B s s') := by
  rcases Inv.allocF hb (w := 8 * n) (by omega) (by omega) 65 R.inv R.noL (by omega) with
    ⟨o, s', B', L', e, G⟩ | ⟨s', B', L', e, G⟩
  · refine .inl ⟨o, s', B', L', e, ⟨G.inv, G.noL, ?_, ?_, ?_, ?_⟩, G.keeps⟩
    · intro a m
      rw [G.used, R.used]
      constructor
      · rintro (⟨p, h1, h2⟩ | ⟨rfl, rfl⟩)
        · exact ⟨p, List.mem_cons_of_mem _ h1, h2⟩
        · exact ⟨n, List.mem_cons_self, rfl⟩
      · rintro ⟨p, h1, h2⟩
        rcases List.mem_cons.1 h1 with h | h
        · cases h; exact .inr ⟨rfl, h2⟩
        · exact .inl ⟨p, h, h2⟩
    · intro x hx
      rcases List.mem_cons.1 hx with rfl | hx
      · show s'.mem o / 4 = 2 * n
        rw [G.head]; omega
      · exact Keeps.head G.keeps (R.block hx) (R.head x hx)
    · show (o :: (l ++ k).map Prod.fst).Nodup
      refine List.nodup_cons.2 ⟨?_, R.keys⟩
      intro h
      obtain ⟨x, hx, rfl⟩ := List.mem_map.1 h
      exact G.fresh _ (R.block hx)
    · have := G.len; have := R.sub0; omega
  · refine .inr ⟨s', B', L', e, ⟨G.inv, G.noL, fun a m => (G.used a m).trans (R.used a m), ?_, R.keys,
      by have := G.len; have := R.sub0; omega⟩, G.keeps⟩
    intro x hx
    exact Keeps.head G.keeps (R.block hx) (R.head x hx)

theorem RunInv.freed {s s' : St} {l k B L B' L'} (R : RunInv s l k B L) {x : Nat × Nat} (hx : x ∈ l) {m}
    (F : Freed s B x.1 m s' B' L') : RunInv s' (l.erase x) k B' L' ∧ Kept (l.erase x ++ k) s s' := by
  have mem := erase_append_mem R.keys hx
  have hb : ∀ y ∈ l.erase x ++ k, mset B x.1 (some (m, .limbo)) y.1 = some (max 32 (8 * y.2), .used) := by
    intro y hy
    have := (mem y).1 hy
    rw [mset_ne _ _ this.1]; exact R.block this.2
  refine ⟨⟨F.inv, F.noL, ?_, ?_, ?_, by rw [F.subs]; exact R.sub0⟩, Keeps.kept F.keeps hb⟩
  · intro a n
    rw [F.used, R.used]
    constructor
    · rintro ⟨h, p, h1, h2⟩
      exact ⟨p, (mem (a, p)).2 ⟨h, h1⟩, h2⟩
    · rintro ⟨p, h1, h2⟩
      have := (mem (a, p)).1 h1
      exact ⟨this.1, p, this.2, h2⟩
  · intro y hy
    exact Keeps.head F.keeps (hb y hy) (R.head y ((mem y).1 hy).2)
  · refine R.keys.sublist (List.Sublist.map _ ?_)
    exact List.Sublist.append (List.erase_sublist) (List.Sublist.refl _)

theorem ARun.inv {hb s l k} (r : ARun hb s l k) : ∃ B L, RunInv s l k B L := by
  induction r with
  | init h8 h0 hsz h =>
    obtain ⟨B, L, I, hn, hu, hl, _⟩ := init_inv h8 h0 hsz h
    refine ⟨B, L, I, hn, ?_, by simp, by simp, by omega⟩
    intro a n
    constructor
    · exact fun h => absurd h (hu a n)
    · rintro ⟨m, h, _⟩; simp at h
  | alloc r hn h ih =>
    obtain ⟨B, L, R⟩ := ih
    rcases R.alloc _ hn with ⟨o, s', B', L', e, R', _⟩ | ⟨s', B', L', e, R', _⟩
    · rw [h] at e; cases e; exact ⟨B', L', R'⟩
    · rw [h] at e; cases e
  | fail r hn h ih =>
    obtain ⟨B, L, R⟩ := ih
    rcases R.alloc _ hn with ⟨o, s', B', L', e, R', _⟩ | ⟨s', B', L', e, R', _⟩
    · rw [h] at e; cases e
    · rw [h] at e; cases e; exact ⟨B', L', R'⟩
  | @free s s' l k x r hx hc h ih =>
    obtain ⟨B, L, R⟩ := ih
    have hbx := R.block (List.mem_append_left k hx)
    by_cases hm : s.mem x.1 % 4 = 0
    · obtain ⟨s1, B', L', e, F⟩ := R.inv.freeObj R.noL hb hbx hm
      rw [h] at e; cases e
      exact ⟨B', L', (R.freed hx F).1⟩
    · rcases R.inv.freeObj_marked hb hbx hm (hc.resolve_left hm) with e | e <;> rw [h] at e <;> cases e
  | @freeErr s l k x c r hx h ih =>
    obtain ⟨B, L, R⟩ := ih
    have hp : (l.erase x ++ x :: k).Perm (l ++ k) := by
      have h1 : (l.erase x ++ x :: k).Perm (x :: (l.erase x ++ k)) := List.perm_middle
      have h2 : (x :: l.erase x).Perm l := (List.perm_cons_erase hx).symm
      exact h1.trans (h2.append_right k)
    refine ⟨B, L, R.inv, R.noL, ?_, fun y hy => R.head y (hp.mem_iff.1 hy), ?_, R.sub0⟩
    · intro a n
      rw [R.used]
      constructor
      · rintro ⟨m, h1, h2⟩; exact ⟨m, hp.mem_iff.2 h1, h2⟩
      · rintro ⟨m, h1, h2⟩; exact ⟨m, hp.mem_iff.1 h1, h2⟩
    · exact ((hp.map Prod.fst).nodup_iff).2 R.keys
  | @write s l k x a v r hx h1 h2 ih =>
    obtain ⟨B, L, R⟩ := ih
    have hbx := R.block (List.mem_append_left k hx)
    refine ⟨B, L, R.inv.frame _ ?_, R.noL, R.used, ?_, R.keys, R.sub0⟩
    · intro c n j hc hj
      have hal := R.inv.tile.al hc
      by_cases hcx : c = x.1
      · subst hcx
        rw [hbx] at hc; cases hc
        exact ⟨upd_ne _ _ (by omega), fun h => absurd rfl h, fun h => by cases h⟩
      · have := R.inv.tile.sep hc hbx hcx
        exact ⟨upd_ne _ _ (by omega), fun _ => upd_ne _ _ (by omega), fun _ => upd_ne _ _ (by omega)⟩
    · intro y hy
      have hby := R.block hy
      show upd s.mem a v y.1 / 4 = _
      rw [upd_ne]
      · exact R.head y hy
      · by_cases hyx : y.1 = x.1
        · omega
        · have := R.inv.tile.sep hby hbx hyx
          omega
  | @other s l k mem fr r hm h1 h2 h8 ih =>
    obtain ⟨B, L, R⟩ := ih
    have same : ∀ {a n j}, B a = some (n, j) → ∀ x, a ≤ x → x < a + n → mem x = s.mem x := by
      intro a n j ha x hx hx'
      obtain ⟨p, hp, h3, h4⟩ := R.inv.tile.ins ha
      exact hm p hp x (by omega) (by omega)
    have I' : Inv { s with mem := mem } B L := R.inv.frame mem (by
      intro a n j ha _
      have hal := R.inv.tile.al ha
      exact ⟨same ha _ (by omega) (by omega), fun _ => same ha _ (by omega) (by omega),
        fun _ => same ha _ (by omega) (by omega)⟩)
    have fs := I'.fsz
    refine ⟨B, L, ⟨⟨?_, I'.tile.dis, I'.tile.nxt, I'.tile.sub, I'.tile.ins, I'.tile.ord, I'.tile.ends⟩, I'.used, I'.free, I'.dv, I'.mark,
      I'.dv1, I'.dv0, I'.lk, I'.lm, I'.nd, ⟨h2, fs.2.1, h8, ?_⟩⟩, R.noL, R.used, ?_, R.keys, R.sub0⟩
    · intro a n j ha
      have h3 := I'.tile.al ha
      have h4 : a + n ≤ s.free := h3.2.2.2.2
      show _ ∧ _ ∧ _ ∧ _ ∧ a + n ≤ fr
      omega
    · have : 0 < s.free := fs.2.2.2
      show 0 < fr
      omega
    · intro y hy
      have hby := R.block hy
      show mem y.1 / 4 = _
      rw [same hby _ (Nat.le_refl _) (by omega)]
      exact R.head y hy

/-! ### The theorems -/

/-- C42: objects that were given out never overlap, lie inside the area's subareas and the segment, start at
offsets divisible by 8, and their first words tell their sizes -/
theorem C42_objects {hb : Nat} {s : St} {l k : List (Nat × Nat)} (r : ARun hb s l k) :
    (l ++ k).Pairwise Apart ∧
    ∀ x ∈ l ++ k, x.1 % 8 = 0 ∧ 0 < x.1 ∧ s.mem x.1 / 8 = x.2 ∧ x.1 + 8 * max 4 x.2 ≤ s.size ∧
      ∃ p ∈ s.subs, p.1 ≤ x.1 ∧ x.1 + 8 * max 4 x.2 ≤ p.1 + p.2 := by
  obtain ⟨B, L, R⟩ := r.inv
  constructor
  · have hn := R.keys
    rw [List.Nodup, List.pairwise_map] at hn
    refine hn.imp_of_mem ?_
    intro x y hx hy hne
    have := R.inv.tile.sep (R.block hx) (R.block hy) hne
    unfold Apart
    omega
  · intro x hx
    have hbx := R.block hx
    have hal := R.inv.tile.al hbx
    have fs := R.inv.fsz
    have hh := R.head x hx
    obtain ⟨p, hp, h1, h2⟩ := R.inv.tile.ins hbx
    exact ⟨hal.1, hal.2.2.2.1, by omega, by omega, p, hp, h1, by omega⟩

/-- C42: an allocation never goes wrong; the other objects keep their sizes and contents -/
theorem C42_alloc {hb : Nat} {s : St} {l k : List (Nat × Nat)} (r : ARun hb s l k) {n : Nat} (hn : n < 2 ^ 37) :
    (∃ o s', Alloc.alloc hb s n = .ok o s' ∧ ARun hb s' ((o, n) :: l) k ∧ Kept (l ++ k) s s') ∨
    (∃ s', Alloc.alloc hb s n = .fail s' ∧ Kept (l ++ k) s s') := by
  obtain ⟨B, L, R⟩ := r.inv
  rcases R.alloc hb hn with ⟨o, s', B', L', e, _, K⟩ | ⟨s', B', L', e, _, K⟩
  · exact .inl ⟨o, s', e, r.alloc hn e, Keeps.kept K fun x hx => R.block hx⟩
  · exact .inr ⟨s', e, Keeps.kept K fun x hx => R.block hx⟩

/-- C42: an object without the mark is freed; the others keep their sizes and contents, and the space is given
out again without a larger area -/
theorem C42_free_partial {hb : Nat} {s : St} {l k : List (Nat × Nat)} (r : ARun hb s l k) {x : Nat × Nat} (hx : x ∈ l)
    (hm : s.mem x.1 % 4 = 0) :
    ∃ s', freeObj hb s x.1 = .ok s' ∧ Kept (l.erase x ++ k) s s' ∧
      ∃ o s'', Alloc.alloc hb s' x.2 = .ok o s'' ∧ s''.subs = s.subs ∧ s''.free = s.free := by
  obtain ⟨B, L, R⟩ := r.inv
  have hbx := R.block (List.mem_append_left k hx)
  obtain ⟨s', B', L', e, F⟩ := R.inv.freeObj R.noL hb hbx hm
  refine ⟨s', e, (R.freed hx F).2, ?_⟩
  have hal := R.inv.tile.al hbx
  have fs := R.inv.fsz
  have ha : Avail s' (usedBytes (8 * x.2)) := by rw [usedBytes_eq (by omega)]; exact F.avail
  obtain ⟨o, s'', e', h1, h2⟩ := F.inv.alloc_avail F.noL hb (w := 8 * x.2) (k := 64) (by omega) (by omega) ha
  exact ⟨o, s'', e', h2.trans F.subs, h1.trans F.free⟩

/-- C42: exactly the objects with the mark are not freed (apart from a coincidence): an error is reported, or
memory outside of the objects is read -/
theorem C42_free_marked {hb : Nat} {s : St} {l k : List (Nat × Nat)} (r : ARun hb s l k) {x : Nat × Nat} (hx : x ∈ l)
    (hm : s.mem x.1 % 4 ≠ 0) (hc : 2 * (s.mem (x.1 - 8) / 4 * 4) ≠ x.1) :
    freeObj hb s x.1 = .err 4 ∨ freeObj hb s x.1 = .ub := by
  obtain ⟨B, L, R⟩ := r.inv
  exact R.inv.freeObj_marked hb (R.block (List.mem_append_left k hx)) hm hc

/-! ### Objects that cannot be freed -/

def aOff : ARes → Nat
  | .ok o _ => o
  | _ => 0
def aSt : ARes → St
  | .ok _ s => s
  | .fail s => s
  | .ub => ⟨fun _ => 0, fun _ => 0, 0, 0, [], 0, 0⟩
def aOk : ARes → Bool
  | .ok _ _ => true
  | _ => false
theorem aOk_eq {r : ARes} (h : aOk r = true) : r = .ok (aOff r) (aSt r) := by
  cases r <;> simp_all [aOk, aOff, aSt]
def fSt : FRes → St
  | .ok s => s
  | _ => ⟨fun _ => 0, fun _ => 0, 0, 0, [], 0, 0⟩
def fOk : FRes → Bool
  | .ok _ => true
  | _ => false
theorem fOk_eq {r : FRes} (h : fOk r = true) : r = .ok (fSt r) := by
  cases r <;> simp_all [fOk, fSt]
def fCode : FRes → Nat
  | .ok _ => 0
  | .err c => c
  | .ub => 99
theorem fCode_eq4 {r : FRes} (h : fCode r = 4) : r = .err 4 := by
  cases r <;> simp_all [fCode]
theorem fCode_eq99 {r : FRes} (h : fCode r = 99) : r = .ub ∨ r = .err 99 := by
  cases r <;> simp_all [fCode]

namespace Wit
def s0 : St := (Alloc.init 800 (fun _ => 0) 4096 1000000).getD ⟨fun _ => 0, fun _ => 0, 0, 0, [], 0, 0⟩
def r1 := alloc 800 s0 4
def r2 := alloc 800 (aSt r1) 4
def r3 := alloc 800 (aSt r2) 4
def f1 := freeObj 800 (aSt r3) 4128
/-- a longer object, a short one, and one that takes nearly all of the rest after the first was freed -/
def q1 := alloc 800 s0 40
def q2 := alloc 800 (aSt q1) 4
def g1 := freeObj 800 (aSt q2) 4128
def q3 := alloc 800 (fSt g1) 960
def q4 := alloc 800 (aSt q3) 40
def w := (aSt q4).store 4440 (2 ^ 50)
end Wit

open Wit in
theorem s0_run : ARun 800 s0 [] [] := by
  have h : (Alloc.init 800 (fun _ => 0) 4096 1000000).isSome = true := by decide +kernel
  obtain ⟨s, hs⟩ := Option.isSome_iff_exists.1 h
  have : s0 = s := by rw [s0, hs]; rfl
  rw [this]
  exact .init (by decide) (by decide) (by decide) hs

open Wit in
/-- C42, what fails: three objects are made, the first is freed, and then freeing the second is refused -/
theorem C42_free_refused : ∃ s l x, ARun 800 s l [] ∧ x ∈ l ∧ freeObj 800 s x.1 = .err 4 := by
  have e1 := aOk_eq (r := r1) (by decide +kernel)
  have e2 := aOk_eq (r := r2) (by decide +kernel)
  have e3 := aOk_eq (r := r3) (by decide +kernel)
  have o1 : aOff r1 = 4128 := by decide +kernel
  have o2 : aOff r2 = 4160 := by decide +kernel
  rw [o1] at e1
  rw [o2] at e2
  have R3 := ((s0_run.alloc (by decide) e1).alloc (by decide) e2).alloc (by decide) e3
  have F := R3.free (x := (4128, 4)) (by simp) (.inl (by decide +kernel)) (fOk_eq (r := f1) (by decide +kernel))
  refine ⟨_, _, (4160, 4), F, ?_, fCode_eq4 (by decide +kernel)⟩
  have o3 : aOff r3 = 4192 := by decide +kernel
  rw [o3]
  decide

open Wit in
/-- C42, what fails: an object of 320 bytes is freed and its space is given out again; then freeing the next
object reads what was written into the new object as a size, and looks for a block in front of the segment -/
theorem C42_free_reads_outside : ∃ s l x, ARun 800 s l [] ∧ x ∈ l ∧ freeObj 800 s x.1 = .ub := by
  have e1 := aOk_eq (r := q1) (by decide +kernel)
  have e2 := aOk_eq (r := q2) (by decide +kernel)
  have o1 : aOff q1 = 4128 := by decide +kernel
  have o2 : aOff q2 = 4448 := by decide +kernel
  rw [o1] at e1
  rw [o2] at e2
  have R2 := (s0_run.alloc (by decide) e1).alloc (by decide) e2
  have F := R2.free (x := (4128, 40)) (by simp) (.inl (by decide +kernel)) (fOk_eq (r := g1) (by decide +kernel))
  have e3 := aOk_eq (r := q3) (by decide +kernel)
  have e4 := aOk_eq (r := q4) (by decide +kernel)
  have o4 : aOff q4 = 4128 := by decide +kernel
  rw [o4] at e4
  have R4 := (F.alloc (by decide) e3).alloc (by decide) e4
  have W := R4.write (x := (4128, 40)) (a := 4440) (v := 2 ^ 50) (by simp) (by decide) (by decide)
  refine ⟨_, _, (4448, 4), W, ?_, ?_⟩
  · have o3 : aOff q3 = 4480 := by decide +kernel
    rw [o3]
    decide
  · rcases fCode_eq99 (r := freeObj 800 ((aSt q4).store 4440 (2 ^ 50)) 4448) (by decide +kernel) with h | h
    · exact h
    · exfalso
      have : fCode (freeObj 800 ((aSt q4).store 4440 (2 ^ 50)) 4448) = 99 := by decide +kernel
      rcases (C42_free_marked W (x := (4448, 4)) (by
        have o3 : aOff q3 = 4480 := by decide +kernel
        rw [o3]; decide) (by decide +kernel) (by decide +kernel)) with h' | h' <;> rw [h'] at h <;> cases h

open Wit in
/-- a run that meets the hypotheses of `C42_objects`, `C42_alloc` and `C42_free_partial` -/
example : ∃ s l x, ARun 800 s l [] ∧ x ∈ l ∧ s.mem x.1 % 4 = 0 ∧ l.length = 2 := by
  have e1 := aOk_eq (r := r1) (by decide +kernel)
  have e2 := aOk_eq (r := r2) (by decide +kernel)
  exact ⟨_, _, (aOff r2, 4), (s0_run.alloc (by decide) e1).alloc (by decide) e2, by simp, by decide +kernel, rfl⟩

end Gkc.Props
