import Verif.Alloc
/-
Invariant of the allocator: the subareas are tiled by blocks.
-/
namespace Gkc.Alloc

/-- kinds of blocks; `edge` and `fin` are the markers at the ends of a subarea, `limbo` is a block that is
being worked on -/
inductive K where
  | used | free | dv | edge | fin | limbo
deriving DecidableEq

/-- the blocks: size and kind of the block at an offset -/
abbrev Map := Nat → Option (Nat × K)

def mset (B : Map) (a : Nat) (v : Option (Nat × K)) : Map := fun x => if x = a then v else B x

theorem mset_same (B : Map) (a : Nat) (v) : mset B a v a = v := by simp [mset]
theorem mset_ne (B : Map) {a b : Nat} (v) (h : b ≠ a) : mset B a v b = B b := by simp [mset, h]
theorem upd_same (f : Nat → Nat) (a v : Nat) : upd f a v a = v := by simp [upd]
theorem upd_ne (f : Nat → Nat) {a b : Nat} (v : Nat) (h : b ≠ a) : upd f a v b = f b := by simp [upd, h]

/-- a doubly linked list; the back pointer of the first element is not looked at -/
def Lk (mem : Nat → Nat) : Nat → List Nat → Prop
  | p, [] => p = 0
  | p, x :: l => p = x ∧ (∀ y, l.head? = some y → mem (y + 16) = x) ∧ Lk mem (mem (x + 8)) l

/-- the blocks tile the subareas -/
structure Tile (fr : Nat) (subs : List (Nat × Nat)) (B : Map) : Prop where
  al : ∀ {a n k}, B a = some (n, k) → a % 8 = 0 ∧ n % 8 = 0 ∧ 32 ≤ n ∧ 0 < a ∧ a + n ≤ fr
  dis : ∀ {a n k b m j}, B a = some (n, k) → B b = some (m, j) → a < b → a + n ≤ b
  nxt : ∀ {a n k}, B a = some (n, k) → k ≠ .fin → ∃ m j, B (a + n) = some (m, j)
  sub : ∀ {p}, p ∈ subs → B p.1 = some (32, .edge) ∧ B (p.1 + p.2 - 32) = some (32, .fin) ∧
    ∃ k, p.2 = 8192 * 2 ^ k
  ins : ∀ {a n k}, B a = some (n, k) → ∃ p ∈ subs, p.1 ≤ a ∧ a + n ≤ p.1 + p.2
  ord : subs.Pairwise fun p q => p.1 + p.2 ≤ q.1
  ends : ∀ {a n k}, B a = some (n, k) → (k = .edge → ∃ p ∈ subs, a = p.1) ∧ (k = .fin → ∃ p ∈ subs, a = p.1 + p.2 - 32)

/-- the words of the blocks and the free lists -/
structure Inv (s : St) (B : Map) (L : Nat → List Nat) : Prop where
  tile : Tile s.free s.subs B
  used : ∀ {a n}, B a = some (n, .used) → s.mem a % 2 = 0 ∧ usedSize (s.mem a) = n
  free : ∀ {a n}, B a = some (n, .free) → s.mem a = n + 1 ∧ ∃ i, idx n = some i ∧ a ∈ L i
  dv : ∀ {a n}, B a = some (n, .dv) → a = s.dv ∧ n = s.dvsz ∧ s.mem a = n + 3 ∧ s.mem (a + 8) = 1
  mark : ∀ {a n k}, B a = some (n, k) → k = .edge ∨ k = .fin → n = 32 ∧ s.mem a = 35 ∧ s.mem (a + 8) = 0
  dv1 : s.dv ≠ 0 → B s.dv = some (s.dvsz, .dv)
  dv0 : s.dv = 0 → s.dvsz = 0
  lk : ∀ i, Lk s.mem (s.bkt i) (L i)
  lm : ∀ {i a}, a ∈ L i → ∃ n, B a = some (n, .free) ∧ idx n = some i
  nd : ∀ i, (L i).Nodup
  fsz : s.free ≤ s.size ∧ s.size ≤ 2 ^ 40 ∧ s.free % 8 = 0 ∧ 0 < s.free

/-- used blocks are the same and their words are kept -/
def Keeps (B : Map) (s s' : St) : Prop :=
  ∀ a n, B a = some (n, .used) → s'.mem a / 4 = s.mem a / 4 ∧ ∀ x, a + 8 ≤ x → x < a + n → s'.mem x = s.mem x

theorem Keeps.refl (B : Map) (s : St) : Keeps B s s := fun _ _ _ => ⟨rfl, fun _ _ _ => rfl⟩

theorem Keeps.trans {B B' : Map} {s s' s'' : St} (h : Keeps B s s') (h' : Keeps B' s' s'')
    (hB : ∀ a n, B a = some (n, .used) → B' a = some (n, .used)) : Keeps B s s'' := by
  intro a n ha
  obtain ⟨h1, h2⟩ := h a n ha
  obtain ⟨h3, h4⟩ := h' a n (hB a n ha)
  exact ⟨h3.trans h1, fun x hx hx' => (h4 x hx hx').trans (h2 x hx hx')⟩

/-! ### Linked lists -/

theorem Lk.frame {mem mem' : Nat → Nat} : ∀ {l : List Nat} {p : Nat}, Lk mem p l →
    (∀ x, x ∈ l → mem' (x + 8) = mem (x + 8) ∧ mem' (x + 16) = mem (x + 16)) → Lk mem' p l
  | [], _, h, _ => h
  | x :: l, p, h, hf => by
    obtain ⟨h1, h2, h3⟩ := h
    refine ⟨h1, ?_, ?_⟩
    · intro y hy
      have : y ∈ l := List.mem_of_mem_head? hy
      rw [(hf y (List.mem_cons_of_mem _ this)).2]
      exact h2 y hy
    · rw [(hf x (by simp)).1]
      exact h3.frame fun y hy => hf y (List.mem_cons_of_mem _ hy)

/-- the back pointer of the first element may be changed -/
theorem Lk.frame_head {mem mem' : Nat → Nat} {l : List Nat} {p : Nat} (h : Lk mem p l)
    (hf : ∀ x, x ∈ l → mem' (x + 8) = mem (x + 8) ∧ (x ≠ p → mem' (x + 16) = mem (x + 16)))
    (hn : l.Nodup) : Lk mem' p l := by
  cases l with
  | nil => exact h
  | cons x l =>
    obtain ⟨h1, h2, h3⟩ := h
    subst h1
    have hx : ∀ y, y ∈ l → y ≠ p := fun y hy he => by subst he; simp at hn; exact hn.1 hy
    refine ⟨rfl, ?_, ?_⟩
    · intro y hy
      have hm : y ∈ l := List.mem_of_mem_head? hy
      rw [(hf y (List.mem_cons_of_mem _ hm)).2 (hx y hm)]
      exact h2 y hy
    · rw [(hf p (by simp)).1]
      exact h3.frame fun y hy =>
        ⟨(hf y (List.mem_cons_of_mem _ hy)).1, (hf y (List.mem_cons_of_mem _ hy)).2 (hx y hy)⟩

theorem Lk.head {mem : Nat → Nat} {l : List Nat} {p : Nat} (h : Lk mem p l) (hp : p ≠ 0) :
    ∃ l', l = p :: l' := by
  cases l with
  | nil => exact absurd h hp
  | cons x l => obtain ⟨rfl, _⟩ := h; exact ⟨l, rfl⟩

theorem Lk.zero {mem : Nat → Nat} {l : List Nat} (h : Lk mem 0 l) (h0 : ∀ x, x ∈ l → x ≠ 0) : l = [] := by
  cases l with
  | nil => rfl
  | cons x l => obtain ⟨he, _⟩ := h; exact absurd he.symm (h0 x (by simp))

theorem Lk.next_mem {mem : Nat → Nat} : ∀ {l : List Nat} {p o : Nat}, Lk mem p l → o ∈ l →
    mem (o + 8) ≠ 0 → mem (o + 8) ∈ l.tail
  | [], _, _, _, ho, _ => by simp at ho
  | x :: l, p, o, h, ho, hne => by
    obtain ⟨_, _, h3⟩ := h
    rcases List.mem_cons.1 ho with rfl | h
    · obtain ⟨l', rfl⟩ := h3.head hne
      simp
    · exact List.mem_of_mem_tail (h3.next_mem h hne)

/-- removal of an element that is not the first -/
theorem Lk.unlink {mem : Nat → Nat} : ∀ {l : List Nat} {p o : Nat}, Lk mem p l → l.Nodup →
    (∀ x y, x ∈ l → y ∈ l → x ≠ y → x + 32 ≤ y ∨ y + 32 ≤ x) → (∀ x, x ∈ l → x ≠ 0) → o ∈ l → p ≠ o →
    mem (o + 16) ∈ l ∧ mem (o + 16) ≠ o ∧ (mem (o + 8) ≠ 0 → mem (o + 8) ∈ l ∧ mem (o + 8) ≠ o) ∧
    ∀ mem' : Nat → Nat, mem' (mem (o + 16) + 8) = mem (o + 8) →
      (mem (o + 8) ≠ 0 → mem' (mem (o + 8) + 16) = mem (o + 16)) →
      (∀ x, x ∈ l → x ≠ o → (x ≠ mem (o + 16) → mem' (x + 8) = mem (x + 8)) ∧
        (x ≠ mem (o + 8) → mem' (x + 16) = mem (x + 16))) → Lk mem' p (l.erase o)
  | [], _, _, _, _, _, _, ho, _ => by simp at ho
  | x :: l, p, o, h, hn, hs, h0, ho, hpo => by
    obtain ⟨rfl, h2, h3⟩ := h
    have hol : o ∈ l := by
      rcases List.mem_cons.1 ho with h | h
      · exact absurd h.symm hpo
      · exact h
    have hnl := (List.nodup_cons.1 hn)
    have hs' := fun a b ha hb => hs a b (List.mem_cons_of_mem p ha) (List.mem_cons_of_mem p hb)
    have h0' := fun a ha => h0 a (List.mem_cons_of_mem p ha)
    have hera : (p :: l).erase o = p :: l.erase o := by
      rw [List.erase_cons_tail]; simpa using hpo
    by_cases hpo' : mem (p + 8) = o
    · -- the element after the first
      obtain ⟨l', rfl⟩ := h3.head (by rw [hpo']; exact h0 o ho)
      rw [hpo'] at h3 h2 hol hnl hs' h0' hera ⊢
      obtain ⟨_, h5, h6⟩ := h3
      have hpv : mem (o + 16) = p := h2 o (by simp)
      have hpl' : p ∉ l' := fun hh => hnl.1 (List.mem_cons_of_mem _ hh)
      have hol' : o ∉ l' := (List.nodup_cons.1 hnl.2).1
      refine ⟨by rw [hpv]; simp, by rw [hpv]; exact hpo, ?_, ?_⟩
      · intro hne
        obtain ⟨l'', rfl⟩ := h6.head hne
        exact ⟨by simp, fun he => hol' (by rw [he]; simp)⟩
      · intro mem' hm1 hm2 hm3
        rw [hpv] at hm1 hm3 hm2
        rw [hera, List.erase_cons_head]
        refine ⟨rfl, ?_, ?_⟩
        · intro y hy
          cases l' with
          | nil => simp at hy
          | cons z l'' =>
            obtain ⟨hz, _⟩ := h6
            simp at hy
            subst hy
            rw [← hz]
            exact hm2 (by rw [hz]; exact h0' _ (by simp))
        · rw [hm1]
          refine h6.frame_head (fun y hy => ?_) (List.nodup_cons.1 hnl.2).2
          have := hm3 y (by simp [hy]) (fun he => hol' (he ▸ hy))
          exact ⟨this.1 (fun he => hpl' (he ▸ hy)), this.2⟩
    · obtain ⟨i1, i2, i3, i4⟩ := h3.unlink hnl.2 hs' h0' hol hpo'
      refine ⟨List.mem_cons_of_mem _ i1, i2, fun hne => ⟨List.mem_cons_of_mem _ (i3 hne).1, (i3 hne).2⟩, ?_⟩
      intro mem' hm1 hm2 hm3
      rw [hera]
      have hpp : p ≠ mem (o + 16) := fun he => hnl.1 (he ▸ i1)
      have hhead : (l.erase o).head? = l.head? := by
        cases l with
        | nil => simp
        | cons z l' =>
          obtain ⟨hz, _⟩ := h3
          rw [List.erase_cons_tail]
          · simp
          · simp; intro he; exact hpo' (hz.trans he)
      refine ⟨rfl, ?_, ?_⟩
      · intro y hy
        rw [hhead] at hy
        have hyl : y ∈ l := List.mem_of_mem_head? hy
        have hyo : y ≠ o := by
          intro he
          cases l with
          | nil => simp at hyl
          | cons z l' =>
            obtain ⟨hz, _⟩ := h3
            simp at hy
            exact hpo' (hz.trans (hy.trans he))
        by_cases hyn : y = mem (o + 8)
        · -- the first of the rest cannot follow `o`
          exfalso
          have h1 := h3.next_mem hol (by rw [← hyn]; exact h0' y hyl)
          rw [← hyn] at h1
          cases l with
          | nil => simp at hyl
          | cons z l' =>
            simp at hy h1
            subst hy
            exact (List.nodup_cons.1 hnl.2).1 h1
        · rw [(hm3 y (List.mem_cons_of_mem _ hyl) hyo).2 hyn]
          exact h2 y hy
      · rw [(hm3 p (by simp) (fun he => hpo he)).1 hpp]
        exact i4 mem' hm1 hm2 fun y hy hyo => hm3 y (List.mem_cons_of_mem _ hy) hyo

/-! ### Tiling -/

theorem Tile.sep {fr subs B} (t : Tile fr subs B) {a n k c m j} (ha : B a = some (n, k))
    (hc : B c = some (m, j)) (h : a ≠ c) : a + n ≤ c ∨ c + m ≤ a := by
  rcases Nat.lt_or_gt_of_ne h with h | h
  · exact .inl (t.dis ha hc h)
  · exact .inr (t.dis hc ha h)

theorem pairwise_or {α : Type} {R : α → α → Prop} {l : List α} (h : l.Pairwise R) {a b : α} (ha : a ∈ l)
    (hb : b ∈ l) : a = b ∨ R a b ∨ R b a := by
  induction h with
  | nil => simp at ha
  | cons hx _ ih =>
    rcases List.mem_cons.1 ha with rfl | ha' <;> rcases List.mem_cons.1 hb with rfl | hb'
    · exact .inl rfl
    · exact .inr (.inl (hx _ hb'))
    · exact .inr (.inr (hx _ ha'))
    · exact ih ha' hb'

def K.plain (k : K) : Prop := k ≠ .edge ∧ k ≠ .fin

theorem mset_eq {B : Map} {o : Nat} {v} {a : Nat} {w} (h : mset B o v a = w) :
    (a = o ∧ v = w) ∨ (a ≠ o ∧ B a = w) := by
  by_cases ha : a = o
  · subst ha; rw [mset_same] at h; exact .inl ⟨rfl, h⟩
  · rw [mset_ne _ _ ha] at h; exact .inr ⟨ha, h⟩

theorem Tile.relabel {fr subs B} (t : Tile fr subs B) {o n k k'} (ho : B o = some (n, k)) (hk : k.plain)
    (hk' : k'.plain) : Tile fr subs (mset B o (some (n, k'))) := by
  have key : ∀ {a m j}, mset B o (some (n, k')) a = some (m, j) → ∃ j', B a = some (m, j') ∧
      (j = .fin ↔ j' = .fin) := by
    intro a m j h
    rcases mset_eq h with ⟨rfl, hh⟩ | ⟨_, h⟩
    · cases hh
      exact ⟨k, ho, by simp [hk.2, hk'.2]⟩
    · exact ⟨j, h, Iff.rfl⟩
  have key' : ∀ {a m j}, B a = some (m, j) → ∃ j', mset B o (some (n, k')) a = some (m, j') := by
    intro a m j h
    by_cases ha : a = o
    · subst ha; rw [ho] at h; cases h; exact ⟨k', mset_same _ _ _⟩
    · exact ⟨j, by rw [mset_ne _ _ ha, h]⟩
  refine ⟨?_, ?_, ?_, ?_, ?_, t.ord, ?_⟩
  · intro a m j h; obtain ⟨j', h, _⟩ := key h; exact t.al h
  · intro a m j b m' i h h'; obtain ⟨j', h, _⟩ := key h; obtain ⟨_, h', _⟩ := key h'; exact t.dis h h'
  · intro a m j h hj
    obtain ⟨j', h, hjj⟩ := key h
    obtain ⟨m', i, h'⟩ := t.nxt h (fun he => hj (hjj.2 he))
    obtain ⟨i', h''⟩ := key' h'
    exact ⟨m', i', h''⟩
  · intro p hp
    obtain ⟨h1, h2, h3⟩ := t.sub hp
    refine ⟨?_, ?_, h3⟩
    · rw [mset_ne _ _ (by intro he; rw [he, ho] at h1; cases h1; exact hk.1 rfl), h1]
    · rw [mset_ne _ _ (by intro he; rw [he, ho] at h2; cases h2; exact hk.2 rfl), h2]
  · intro a m j h; obtain ⟨j', h, _⟩ := key h; exact t.ins h
  · intro a m j h
    rcases mset_eq h with ⟨rfl, hh⟩ | ⟨_, h⟩
    · cases hh; exact ⟨fun he => absurd he hk'.1, fun he => absurd he hk'.2⟩
    · exact t.ends h

theorem Tile.split {fr subs B} (t : Tile fr subs B) {o n m} (ho : B o = some (n, .limbo)) (hm : m % 8 = 0)
    (h1 : 32 ≤ m) (h2 : m + 32 ≤ n) :
    Tile fr subs (mset (mset B o (some (m, .limbo))) (o + m) (some (n - m, .limbo))) := by
  obtain ⟨ha1, ha2, ha3, ha4, ha5⟩ := t.al ho
  have hnone : B (o + m) = none := by
    cases h : B (o + m) with
    | none => rfl
    | some p => obtain ⟨p, k⟩ := p; have := t.dis ho h (by omega); omega
  have key : ∀ {a p j}, mset (mset B o (some (m, .limbo))) (o + m) (some (n - m, .limbo)) a = some (p, j) →
      (a = o + m ∧ p = n - m ∧ j = .limbo) ∨ (a = o ∧ p = m ∧ j = .limbo) ∨ (a ≠ o ∧ a ≠ o + m ∧ B a = some (p, j)) := by
    intro a p j h
    rcases mset_eq h with ⟨rfl, hh⟩ | ⟨hne, h⟩
    · cases hh; exact .inl ⟨rfl, rfl, rfl⟩
    · rcases mset_eq h with ⟨rfl, hh⟩ | ⟨hne', h⟩
      · cases hh; exact .inr (.inl ⟨rfl, rfl, rfl⟩)
      · exact .inr (.inr ⟨hne', hne, h⟩)
  have key' : ∀ {a p j}, B a = some (p, j) →
      ∃ p' j', mset (mset B o (some (m, .limbo))) (o + m) (some (n - m, .limbo)) a = some (p', j') := by
    intro a p j h
    by_cases ha : a = o + m
    · subst ha; rw [hnone] at h; cases h
    · by_cases ha' : a = o
      · subst ha'; exact ⟨m, .limbo, by rw [mset_ne _ _ ha, mset_same]⟩
      · exact ⟨p, j, by rw [mset_ne _ _ ha, mset_ne _ _ ha', h]⟩
  refine ⟨?_, ?_, ?_, ?_, ?_, t.ord, ?_⟩
  · intro a p j h
    rcases key h with ⟨rfl, rfl, rfl⟩ | ⟨rfl, rfl, rfl⟩ | ⟨_, _, h⟩
    · omega
    · omega
    · exact t.al h
  · intro a p j b q i h h' hab
    rcases key h with ⟨rfl, rfl, rfl⟩ | ⟨rfl, rfl, rfl⟩ | ⟨hao, _, g⟩ <;>
    rcases key h' with ⟨rfl, rfl, rfl⟩ | ⟨rfl, rfl, rfl⟩ | ⟨hbo, _, g'⟩
    · omega
    · omega
    · rcases t.sep ho g' (Ne.symm hbo) with h | h <;> omega
    · omega
    · omega
    · have := t.dis ho g' hab; omega
    · rcases t.sep ho g (Ne.symm hao) with h | h <;> omega
    · exact t.dis g ho hab
    · exact t.dis g g' hab
  · intro a p j h hj
    rcases key h with ⟨rfl, rfl, rfl⟩ | ⟨rfl, rfl, rfl⟩ | ⟨hao, _, h⟩
    · obtain ⟨q, i, h'⟩ := t.nxt ho (by decide)
      obtain ⟨q', i', h''⟩ := key' h'
      exact ⟨q', i', by rw [show o + m + (n - m) = o + n by omega]; exact h''⟩
    · exact ⟨n - p, .limbo, by rw [mset_same]⟩
    · obtain ⟨q, i, h'⟩ := t.nxt h hj
      exact key' h'
  · intro p hp
    obtain ⟨h1, h2, h3⟩ := t.sub hp
    refine ⟨?_, ?_, h3⟩
    · rw [mset_ne _ _ (by intro he; rw [he, hnone] at h1; cases h1),
        mset_ne _ _ (by intro he; rw [he, ho] at h1; cases h1), h1]
    · rw [mset_ne _ _ (by intro he; rw [he, hnone] at h2; cases h2),
        mset_ne _ _ (by intro he; rw [he, ho] at h2; cases h2), h2]
  · intro a p j h
    obtain ⟨q, hq, hq1, hq2⟩ := t.ins ho
    rcases key h with ⟨rfl, rfl, rfl⟩ | ⟨rfl, rfl, rfl⟩ | ⟨hao, _, h⟩
    · exact ⟨q, hq, by omega, by omega⟩
    · exact ⟨q, hq, by omega, by omega⟩
    · exact t.ins h
  · intro a p j h
    rcases key h with ⟨_, _, rfl⟩ | ⟨_, _, rfl⟩ | ⟨_, _, h⟩
    · exact ⟨fun he => (by cases he), fun he => (by cases he)⟩
    · exact ⟨fun he => (by cases he), fun he => (by cases he)⟩
    · exact t.ends h

theorem Tile.merge {fr subs B} (t : Tile fr subs B) {o n m} (ho : B o = some (n, .limbo))
    (hx : B (o + n) = some (m, .limbo)) :
    Tile fr subs (mset (mset B (o + n) none) o (some (n + m, .limbo))) := by
  obtain ⟨ha1, ha2, ha3, ha4, ha5⟩ := t.al ho
  obtain ⟨hb1, hb2, hb3, hb4, hb5⟩ := t.al hx
  have key : ∀ {a p j}, mset (mset B (o + n) none) o (some (n + m, .limbo)) a = some (p, j) →
      (a = o ∧ p = n + m ∧ j = .limbo) ∨ (a ≠ o ∧ a ≠ o + n ∧ B a = some (p, j)) := by
    intro a p j h
    rcases mset_eq h with ⟨rfl, hh⟩ | ⟨hne, h⟩
    · cases hh; exact .inl ⟨rfl, rfl, rfl⟩
    · rcases mset_eq h with ⟨rfl, hh⟩ | ⟨hne', h⟩
      · cases hh
      · exact .inr ⟨hne, hne', h⟩
  have key' : ∀ {a p j}, B a = some (p, j) → a ≠ o + n →
      ∃ p' j', mset (mset B (o + n) none) o (some (n + m, .limbo)) a = some (p', j') := by
    intro a p j h hne
    by_cases ha' : a = o
    · subst ha'; exact ⟨_, _, by rw [mset_same]⟩
    · exact ⟨p, j, by rw [mset_ne _ _ ha', mset_ne _ _ hne, h]⟩
  refine ⟨?_, ?_, ?_, ?_, ?_, t.ord, ?_⟩
  · intro a p j h
    rcases key h with ⟨rfl, rfl, rfl⟩ | ⟨_, _, h⟩
    · omega
    · exact t.al h
  · intro a p j b q i h h' hab
    rcases key h with ⟨rfl, rfl, rfl⟩ | ⟨hao, hao', g⟩ <;>
    rcases key h' with ⟨rfl, rfl, rfl⟩ | ⟨hbo, hbo', g'⟩
    · omega
    · have h3 := t.dis ho g' hab
      have h4 := t.dis hx g' (by omega)
      omega
    · exact t.dis g ho hab
    · exact t.dis g g' hab
  · intro a p j h hj
    rcases key h with ⟨rfl, rfl, rfl⟩ | ⟨hao, _, h⟩
    · obtain ⟨q, i, h'⟩ := t.nxt hx (by decide)
      obtain ⟨q', i', h''⟩ := key' h' (by omega)
      exact ⟨q', i', by rw [show a + (n + m) = a + n + m by omega]; exact h''⟩
    · obtain ⟨q, i, h'⟩ := t.nxt h hj
      refine key' h' ?_
      intro he
      rcases Nat.lt_or_gt_of_ne hao with hlt | hlt
      · have := t.dis h ho hlt; omega
      · have := t.dis ho h hlt
        have := (t.al h).2.2.1
        omega
  · intro p hp
    obtain ⟨h1, h2, h3⟩ := t.sub hp
    refine ⟨?_, ?_, h3⟩
    · rw [mset_ne _ _ (by intro he; rw [he, ho] at h1; cases h1),
        mset_ne _ _ (by intro he; rw [he, hx] at h1; cases h1), h1]
    · rw [mset_ne _ _ (by intro he; rw [he, ho] at h2; cases h2),
        mset_ne _ _ (by intro he; rw [he, hx] at h2; cases h2), h2]
  · intro a p j h
    rcases key h with ⟨rfl, rfl, rfl⟩ | ⟨hao, _, h⟩
    · obtain ⟨q, hq, hq1, hq2⟩ := t.ins ho
      obtain ⟨r, hr, hr1, hr2⟩ := t.ins hx
      rcases pairwise_or t.ord hq hr with rfl | ho' | ho'
      · exact ⟨q, hq, by omega, by omega⟩
      · exfalso
        have h5 := (t.sub hr).1
        rw [show r.1 = a + n by omega, hx] at h5
        cases h5
      · omega
    · exact t.ins h
  · intro a p j h
    rcases key h with ⟨_, _, rfl⟩ | ⟨_, _, h⟩
    · exact ⟨fun he => (by cases he), fun he => (by cases he)⟩
    · exact t.ends h

/-! ### Words -/

theorem pure_of {n : Nat} (h : n % 8 = 0) : pure n = n := by simp only [pure]; omega
theorem pure_add {n r : Nat} (h : n % 8 = 0) (hr : r < 4) : pure (n + r) = n := by simp only [pure]; omega

theorem usedSize_congr {v w : Nat} (h : v / 4 = w / 4) : usedSize v = usedSize w := by
  unfold usedSize pure; rw [h]

theorem Inv.ne0 {s B L} (I : Inv s B L) {i a} (h : a ∈ L i) : a ≠ 0 := by
  obtain ⟨n, h, _⟩ := I.lm h
  have := (I.tile.al h).2.2.2.1
  omega

theorem Inv.lsep {s B L} (I : Inv s B L) {i x j y} (hx : x ∈ L i) (hy : y ∈ L j) (h : x ≠ y) :
    x + 32 ≤ y ∨ y + 32 ≤ x := by
  obtain ⟨n, hn, _⟩ := I.lm hx
  obtain ⟨m, hm, _⟩ := I.lm hy
  have h1 := (I.tile.al hn).2.2.1
  have h2 := (I.tile.al hm).2.2.1
  rcases I.tile.sep hn hm h with h | h <;> omega

theorem Inv.fin1 {s B L} (I : Inv s B L) {x i j} (hi : x ∈ L i) (hj : x ∈ L j) : i = j := by
  obtain ⟨n, hn, h1⟩ := I.lm hi
  obtain ⟨m, hm, h2⟩ := I.lm hj
  rw [hn] at hm
  cases hm
  rw [h1] at h2
  cases h2
  rfl

/-- words outside the footprint of all blocks may change -/
theorem Inv.frame {s B L} (I : Inv s B L) (mem' : Nat → Nat)
    (h : ∀ {a n k}, B a = some (n, k) → k ≠ .limbo → mem' a = s.mem a ∧ (k ≠ .used → mem' (a + 8) = s.mem (a + 8)) ∧
      (k = .free → mem' (a + 16) = s.mem (a + 16))) : Inv { s with mem := mem' } B L := by
  refine ⟨I.tile, ?_, ?_, ?_, ?_, I.dv1, I.dv0, ?_, I.lm, I.nd, I.fsz⟩
  · intro a n ha
    show mem' a % 2 = 0 ∧ usedSize (mem' a) = n
    rw [(h ha (by decide)).1]; exact I.used ha
  · intro a n ha
    show mem' a = n + 1 ∧ _
    rw [(h ha (by decide)).1]; exact I.free ha
  · intro a n ha
    show _ ∧ _ ∧ mem' a = n + 3 ∧ mem' (a + 8) = 1
    rw [(h ha (by decide)).1, (h ha (by decide)).2.1 (by decide)]; exact I.dv ha
  · intro a n k ha hk
    have hk' : k ≠ .limbo ∧ k ≠ .used := by rcases hk with rfl | rfl <;> decide
    show _ ∧ mem' a = 35 ∧ mem' (a + 8) = 0
    rw [(h ha hk'.1).1, (h ha hk'.1).2.1 hk'.2]; exact I.mark ha hk
  · intro i
    refine (I.lk i).frame fun x hx => ?_
    obtain ⟨n, hn, _⟩ := I.lm hx
    exact ⟨(h hn (by decide)).2.1 (by decide), (h hn (by decide)).2.2 rfl⟩

theorem Inv.store {s B L} (I : Inv s B L) {c m w v} (hc : B c = some (m, .limbo)) (h1 : c ≤ w) (h2 : w < c + m) :
    Inv (s.store w v) B L := by
  refine I.frame _ ?_
  intro a n k ha hk
  have hne : a ≠ c := by rintro rfl; rw [hc] at ha; cases ha; exact hk rfl
  have := (I.tile.al ha).2.2.1
  have hs := I.tile.sep ha hc hne
  refine ⟨upd_ne _ _ (by omega), fun _ => upd_ne _ _ (by omega), fun _ => upd_ne _ _ (by omega)⟩

theorem Inv.store_keeps {s B L} (I : Inv s B L) {c m w v} (hc : B c = some (m, .limbo)) (h1 : c ≤ w)
    (h2 : w < c + m) : Keeps B s (s.store w v) := by
  intro a n ha
  have hne : a ≠ c := by rintro rfl; rw [hc] at ha; cases ha
  have := (I.tile.al ha).2.2.1
  have hs := I.tile.sep ha hc hne
  refine ⟨by rw [St.store]; simp only; rw [upd_ne _ _ (by omega)], fun x hx hx' => upd_ne _ _ (by omega)⟩

/-- change of the mark in the first word of a block -/
theorem Inv.remark {s B L} (I : Inv s B L) {a n k v} (ha : B a = some (n, k)) (he : s.mem a % 2 = 0)
    (hv : v % 2 = 0) (hq : v / 4 = s.mem a / 4) : Inv (s.store a v) B L ∧ Keeps B s (s.store a v) := by
  have hk : k = .used ∨ k = .limbo := by
    have hal := I.tile.al ha
    cases k with
    | used => exact .inl rfl
    | limbo => exact .inr rfl
    | free => have := (I.free ha).1; omega
    | dv => have := (I.dv ha).2.2.1; omega
    | edge => have := (I.mark ha (.inl rfl)).2.1; omega
    | fin => have := (I.mark ha (.inr rfl)).2.1; omega
  rcases hk with rfl | rfl
  · constructor
    · refine ⟨I.tile, ?_, ?_, ?_, ?_, I.dv1, I.dv0, ?_, I.lm, I.nd, I.fsz⟩
      · intro b m hb
        by_cases hba : b = a
        · subst hba
          show upd _ _ _ _ % 2 = 0 ∧ usedSize (upd _ _ _ _) = _
          rw [upd_same]
          exact ⟨hv, (usedSize_congr hq).trans (I.used hb).2⟩
        · show upd _ _ _ _ % 2 = 0 ∧ usedSize (upd _ _ _ _) = _
          rw [upd_ne _ _ hba]; exact I.used hb
      · intro b m hb
        have hba : b ≠ a := by rintro rfl; rw [ha] at hb; cases hb
        show upd _ _ _ _ = _ ∧ _
        rw [upd_ne _ _ hba]; exact I.free hb
      · intro b m hb
        have hba : b ≠ a := by rintro rfl; rw [ha] at hb; cases hb
        have hs := I.tile.sep hb ha hba
        have := (I.tile.al hb).2.2.1
        show _ ∧ _ ∧ upd _ _ _ _ = _ ∧ upd _ _ _ _ = _
        rw [upd_ne _ _ hba, upd_ne _ _ (by omega)]; exact I.dv hb
      · intro b m j hb hj
        have hba : b ≠ a := by rintro rfl; rw [ha] at hb; cases hb; rcases hj with h | h <;> cases h
        have hs := I.tile.sep hb ha hba
        have := (I.tile.al hb).2.2.1
        show _ ∧ upd _ _ _ _ = _ ∧ upd _ _ _ _ = _
        rw [upd_ne _ _ hba, upd_ne _ _ (by omega)]; exact I.mark hb hj
      · intro i
        refine (I.lk i).frame fun x hx => ?_
        obtain ⟨m, hm, _⟩ := I.lm hx
        have hba : x ≠ a := by rintro rfl; rw [ha] at hm; cases hm
        have hs := I.tile.sep hm ha hba
        have := (I.tile.al hm).2.2.1
        exact ⟨upd_ne _ _ (by omega), upd_ne _ _ (by omega)⟩
    · intro b m hb
      by_cases hba : b = a
      · subst hba
        refine ⟨?_, fun x hx _ => upd_ne _ _ (by omega)⟩
        show upd _ _ _ _ / 4 = _
        rw [upd_same]; exact hq
      · have hs := I.tile.sep hb ha hba
        have h3 := (I.tile.al ha).2.2.1
        have h4 := (I.tile.al hb).2.2.1
        refine ⟨?_, fun x hx _ => upd_ne _ _ (by omega)⟩
        show upd _ _ _ _ / 4 = _
        rw [upd_ne _ _ hba]
  · have h3 := (I.tile.al ha).2.2.1
    exact ⟨I.store ha (Nat.le_refl _) (by omega), I.store_keeps ha (Nat.le_refl _) (by omega)⟩

theorem Inv.markPrevUsed {s B L} (I : Inv s B L) {a n k} (ha : B a = some (n, k)) :
    Inv (markPrevUsed s a) B L ∧ Keeps B s (markPrevUsed s a) := by
  unfold Alloc.markPrevUsed
  split
  · rename_i h
    exact I.remark ha h (by simp only [usedHead, pure]; omega) (by simp only [usedHead, pure]; omega)
  · exact ⟨I, Keeps.refl _ _⟩

theorem Inv.markPrevFree {s B L} (I : Inv s B L) {a n k} (ha : B a = some (n, k)) :
    Inv (markPrevFree s a) B L ∧ Keeps B s (markPrevFree s a) := by
  unfold Alloc.markPrevFree
  split
  · rename_i h
    exact I.remark ha h (by simp only [usedHeadPrevFree, pure]; omega)
      (by simp only [usedHeadPrevFree, pure]; omega)
  · exact ⟨I, Keeps.refl _ _⟩

/-! ### Blocks change their kinds -/

/-- change of the kind of a block that is no longer read -/
theorem Inv.toLimbo {s B L} (I : Inv s B L) {o n} (ho : B o = some (n, .used)) :
    Inv s (mset B o (some (n, .limbo))) L := by
  have key : ∀ {a m k}, mset B o (some (n, .limbo)) a = some (m, k) → k ≠ .limbo → B a = some (m, k) := by
    intro a m k h hk
    rcases mset_eq h with ⟨rfl, hh⟩ | ⟨_, h⟩
    · cases hh; exact absurd rfl hk
    · exact h
  have key' : ∀ {a m k}, B a = some (m, k) → k ≠ .used → mset B o (some (n, .limbo)) a = some (m, k) := by
    intro a m k h hk
    rw [mset_ne _ _ (by rintro rfl; rw [ho] at h; cases h; exact hk rfl), h]
  refine ⟨I.tile.relabel ho ⟨by decide, by decide⟩ ⟨by decide, by decide⟩, ?_, ?_, ?_, ?_, ?_, I.dv0, I.lk, ?_, I.nd, I.fsz⟩
  · intro a m h; exact I.used (key h (by decide))
  · intro a m h; exact I.free (key h (by decide))
  · intro a m h; exact I.dv (key h (by decide))
  · intro a m k h hk; exact I.mark (key h (by rcases hk with rfl | rfl <;> decide)) hk
  · intro h; exact key' (I.dv1 h) (by decide)
  · intro i a h
    obtain ⟨m, hm, h2⟩ := I.lm h
    exact ⟨m, key' hm (by decide), h2⟩

theorem Inv.undv {s B L} (I : Inv s B L) (h0 : s.dv ≠ 0) :
    Inv { s with dv := 0, dvsz := 0 } (mset B s.dv (some (s.dvsz, .limbo))) L := by
  have ho := I.dv1 h0
  have key : ∀ {a m k}, mset B s.dv (some (s.dvsz, .limbo)) a = some (m, k) → k ≠ .limbo →
      a ≠ s.dv ∧ B a = some (m, k) := by
    intro a m k h hk
    rcases mset_eq h with ⟨rfl, hh⟩ | ⟨h1, h⟩
    · cases hh; exact absurd rfl hk
    · exact ⟨h1, h⟩
  have key' : ∀ {a m k}, B a = some (m, k) → k ≠ .dv → mset B s.dv (some (s.dvsz, .limbo)) a = some (m, k) := by
    intro a m k h hk
    rw [mset_ne _ _ (by rintro rfl; rw [ho] at h; cases h; exact hk rfl), h]
  refine ⟨I.tile.relabel ho ⟨by decide, by decide⟩ ⟨by decide, by decide⟩, ?_, ?_, ?_, ?_, ?_, ?_, I.lk, ?_, I.nd, I.fsz⟩
  · intro a m h; exact I.used (key h (by decide)).2
  · intro a m h; exact I.free (key h (by decide)).2
  · intro a m h
    have h1 := key h (by decide)
    exact absurd (I.dv h1.2).1 h1.1
  · intro a m k h hk; exact I.mark (key h (by rcases hk with rfl | rfl <;> decide)).2 hk
  · intro h; exact absurd rfl h
  · intro _; rfl
  · intro i a h
    obtain ⟨m, hm, h2⟩ := I.lm h
    exact ⟨m, key' hm (by decide), h2⟩

theorem Inv.toUsed {s B L} (I : Inv s B L) {o n} (ho : B o = some (n, .limbo)) (he : s.mem o % 2 = 0)
    (hs : usedSize (s.mem o) = n) : Inv s (mset B o (some (n, .used))) L := by
  have key : ∀ {a m k}, mset B o (some (n, .used)) a = some (m, k) → (a = o ∧ m = n ∧ k = .used) ∨ B a = some (m, k) := by
    intro a m k h
    rcases mset_eq h with ⟨rfl, hh⟩ | ⟨_, h⟩
    · cases hh; exact .inl ⟨rfl, rfl, rfl⟩
    · exact .inr h
  have key' : ∀ {a m k}, B a = some (m, k) → k ≠ .limbo → mset B o (some (n, .used)) a = some (m, k) := by
    intro a m k h hk
    rw [mset_ne _ _ (by rintro rfl; rw [ho] at h; cases h; exact hk rfl), h]
  refine ⟨I.tile.relabel ho ⟨by decide, by decide⟩ ⟨by decide, by decide⟩, ?_, ?_, ?_, ?_, ?_, I.dv0, I.lk, ?_, I.nd, I.fsz⟩
  · intro a m h
    rcases key h with ⟨rfl, rfl, _⟩ | h
    · exact ⟨he, hs⟩
    · exact I.used h
  · intro a m h; rcases key h with ⟨_, _, hh⟩ | h; · cases hh
    exact I.free h
  · intro a m h; rcases key h with ⟨_, _, hh⟩ | h; · cases hh
    exact I.dv h
  · intro a m k h hk; rcases key h with ⟨_, _, rfl⟩ | h; · rcases hk with h | h <;> cases h
    exact I.mark h hk
  · intro h; exact key' (I.dv1 h) (by decide)
  · intro i a h
    obtain ⟨m, hm, h2⟩ := I.lm h
    exact ⟨m, key' hm (by decide), h2⟩

theorem Inv.toDv {s B L} (I : Inv s B L) {o n} (ho : B o = some (n, .limbo)) (h0 : s.dv = 0)
    (h1 : s.mem o = n + 3) (h2 : s.mem (o + 8) = 1) :
    Inv { s with dv := o, dvsz := n } (mset B o (some (n, .dv))) L := by
  have key : ∀ {a m k}, mset B o (some (n, .dv)) a = some (m, k) → (a = o ∧ m = n ∧ k = .dv) ∨ B a = some (m, k) := by
    intro a m k h
    rcases mset_eq h with ⟨rfl, hh⟩ | ⟨_, h⟩
    · cases hh; exact .inl ⟨rfl, rfl, rfl⟩
    · exact .inr h
  have key' : ∀ {a m k}, B a = some (m, k) → k ≠ .limbo → mset B o (some (n, .dv)) a = some (m, k) := by
    intro a m k h hk
    rw [mset_ne _ _ (by rintro rfl; rw [ho] at h; cases h; exact hk rfl), h]
  have ho0 := (I.tile.al ho).2.2.2.1
  refine ⟨I.tile.relabel ho ⟨by decide, by decide⟩ ⟨by decide, by decide⟩, ?_, ?_, ?_, ?_, ?_, ?_, I.lk, ?_, I.nd, I.fsz⟩
  · intro a m h; rcases key h with ⟨_, _, hh⟩ | h; · cases hh
    exact I.used h
  · intro a m h; rcases key h with ⟨_, _, hh⟩ | h; · cases hh
    exact I.free h
  · intro a m h
    rcases key h with ⟨rfl, rfl, _⟩ | h
    · exact ⟨rfl, rfl, h1, h2⟩
    · exfalso
      have h3 := (I.dv h).1
      have h4 := (I.tile.al h).2.2.2.1
      omega
  · intro a m k h hk; rcases key h with ⟨_, _, rfl⟩ | h; · rcases hk with h | h <;> cases h
    exact I.mark h hk
  · intro _; exact mset_same _ _ _
  · intro h; exact absurd h (by show o ≠ 0; omega)
  · intro i a h
    obtain ⟨m, hm, h2⟩ := I.lm h
    exact ⟨m, key' hm (by decide), h2⟩

theorem Inv.split {s B L} (I : Inv s B L) {o n m} (ho : B o = some (n, .limbo)) (hm : m % 8 = 0)
    (h1 : 32 ≤ m) (h2 : m + 32 ≤ n) :
    Inv s (mset (mset B o (some (m, .limbo))) (o + m) (some (n - m, .limbo))) L := by
  have hnone : B (o + m) = none := by
    cases h : B (o + m) with
    | none => rfl
    | some p => obtain ⟨p, k⟩ := p; have := I.tile.dis ho h (by omega); omega
  have key : ∀ {a p k}, mset (mset B o (some (m, .limbo))) (o + m) (some (n - m, .limbo)) a = some (p, k) →
      k ≠ .limbo → B a = some (p, k) := by
    intro a p k h hk
    rcases mset_eq h with ⟨rfl, hh⟩ | ⟨_, h⟩
    · cases hh; exact absurd rfl hk
    · rcases mset_eq h with ⟨rfl, hh⟩ | ⟨_, h⟩
      · cases hh; exact absurd rfl hk
      · exact h
  have key' : ∀ {a p k}, B a = some (p, k) → k ≠ .limbo →
      mset (mset B o (some (m, .limbo))) (o + m) (some (n - m, .limbo)) a = some (p, k) := by
    intro a p k h hk
    rw [mset_ne _ _ (by rintro rfl; rw [hnone] at h; cases h),
      mset_ne _ _ (by rintro rfl; rw [ho] at h; cases h; exact hk rfl), h]
  refine ⟨I.tile.split ho hm h1 h2, ?_, ?_, ?_, ?_, ?_, I.dv0, I.lk, ?_, I.nd, I.fsz⟩
  · intro a m h; exact I.used (key h (by decide))
  · intro a m h; exact I.free (key h (by decide))
  · intro a m h; exact I.dv (key h (by decide))
  · intro a m k h hk; exact I.mark (key h (by rcases hk with rfl | rfl <;> decide)) hk
  · intro h; exact key' (I.dv1 h) (by decide)
  · intro i a h
    obtain ⟨m, hm, h2⟩ := I.lm h
    exact ⟨m, key' hm (by decide), h2⟩

theorem Inv.merge {s B L} (I : Inv s B L) {o n m} (ho : B o = some (n, .limbo))
    (hx : B (o + n) = some (m, .limbo)) :
    Inv s (mset (mset B (o + n) none) o (some (n + m, .limbo))) L := by
  have key : ∀ {a p k}, mset (mset B (o + n) none) o (some (n + m, .limbo)) a = some (p, k) →
      k ≠ .limbo → B a = some (p, k) := by
    intro a p k h hk
    rcases mset_eq h with ⟨rfl, hh⟩ | ⟨_, h⟩
    · cases hh; exact absurd rfl hk
    · rcases mset_eq h with ⟨rfl, hh⟩ | ⟨_, h⟩
      · cases hh
      · exact h
  have key' : ∀ {a p k}, B a = some (p, k) → k ≠ .limbo →
      mset (mset B (o + n) none) o (some (n + m, .limbo)) a = some (p, k) := by
    intro a p k h hk
    rw [mset_ne _ _ (by rintro rfl; rw [ho] at h; cases h; exact hk rfl),
      mset_ne _ _ (by rintro rfl; rw [hx] at h; cases h; exact hk rfl), h]
  refine ⟨I.tile.merge ho hx, ?_, ?_, ?_, ?_, ?_, I.dv0, I.lk, ?_, I.nd, I.fsz⟩
  · intro a m h; exact I.used (key h (by decide))
  · intro a m h; exact I.free (key h (by decide))
  · intro a m h; exact I.dv (key h (by decide))
  · intro a m k h hk; exact I.mark (key h (by rcases hk with rfl | rfl <;> decide)) hk
  · intro h; exact key' (I.dv1 h) (by decide)
  · intro i a h
    obtain ⟨m, hm, h2⟩ := I.lm h
    exact ⟨m, key' hm (by decide), h2⟩

/-! ### Free lists -/

def lset (L : Nat → List Nat) (i : Nat) (l : List Nat) : Nat → List Nat := fun j => if j = i then l else L j

theorem lset_same (L : Nat → List Nat) (i : Nat) (l) : lset L i l i = l := by simp [lset]
theorem lset_ne (L : Nat → List Nat) {i j : Nat} (l) (h : j ≠ i) : lset L i l j = L j := by simp [lset, h]

/-- a block becomes the first element of its list -/
theorem Inv.link {s B L} (I : Inv s B L) {o n i} (ho : B o = some (n, .limbo)) (hi : idx n = some i)
    {mem' : Nat → Nat} (h1 : mem' o = n + 1) (h2 : mem' (o + 8) = s.bkt i)
    (h3 : s.bkt i ≠ 0 → mem' (s.bkt i + 16) = o)
    (h4 : ∀ x, x < o ∨ o + n ≤ x → x ≠ s.bkt i + 16 ∨ s.bkt i = 0 → mem' x = s.mem x) :
    Inv { s with mem := mem', bkt := upd s.bkt i o } (mset B o (some (n, .free))) (lset L i (o :: L i)) ∧
    Keeps B s { s with mem := mem', bkt := upd s.bkt i o } := by
  have hal := I.tile.al ho
  have hfl : s.bkt i ≠ 0 → s.bkt i ∈ L i := by
    intro h
    obtain ⟨l, hl⟩ := (I.lk i).head h
    rw [hl]; simp
  have key : ∀ {a m k}, mset B o (some (n, .free)) a = some (m, k) →
      (a = o ∧ m = n ∧ k = .free) ∨ (a ≠ o ∧ B a = some (m, k)) := by
    intro a m k h
    rcases mset_eq h with ⟨rfl, hh⟩ | ⟨h1, h⟩
    · cases hh; exact .inl ⟨rfl, rfl, rfl⟩
    · exact .inr ⟨h1, h⟩
  have key' : ∀ {a m k}, B a = some (m, k) → k ≠ .limbo → mset B o (some (n, .free)) a = some (m, k) := by
    intro a m k h hk
    rw [mset_ne _ _ (by rintro rfl; rw [ho] at h; cases h; exact hk rfl), h]
  -- words of other blocks
  have same : ∀ {a m k x}, B a = some (m, k) → a ≠ o → a ≤ x → x < a + m →
      (k = .free → x ≠ a + 16) → mem' x = s.mem x := by
    intro a m k x ha hao hx1 hx2 hk
    refine h4 x ?_ ?_
    · rcases I.tile.sep ha ho hao with h | h <;> omega
    · by_cases h0 : s.bkt i = 0
      · exact .inr h0
      · left
        obtain ⟨m', hm', _⟩ := I.lm (hfl h0)
        have h5 := (I.tile.al hm').2.2.1
        by_cases hae : a = s.bkt i
        · subst hae
          rw [hm'] at ha; cases ha
          exact hk rfl
        · rcases I.tile.sep ha hm' hae with h | h <;> omega
  have hoL : ∀ j, o ∉ L j := by
    intro j h
    obtain ⟨m, hm, _⟩ := I.lm h
    rw [ho] at hm; cases hm
  constructor
  · refine ⟨I.tile.relabel ho ⟨by decide, by decide⟩ ⟨by decide, by decide⟩, ?_, ?_, ?_, ?_, ?_, I.dv0, ?_, ?_, ?_, I.fsz⟩
    · intro a m h
      rcases key h with ⟨_, _, hh⟩ | ⟨hne, h⟩
      · cases hh
      have h5 := (I.tile.al h).2.2.1
      show mem' a % 2 = 0 ∧ usedSize (mem' a) = m
      rw [same h hne (Nat.le_refl _) (by omega) (by intro h; cases h)]
      exact I.used h
    · intro a m h
      rcases key h with ⟨rfl, rfl, _⟩ | ⟨hne, h⟩
      · exact ⟨h1, i, hi, by rw [lset_same]; simp⟩
      · have h5 := (I.tile.al h).2.2.1
        obtain ⟨h6, j, hj, h7⟩ := I.free h
        refine ⟨?_, j, hj, ?_⟩
        · show mem' a = m + 1
          rw [same h hne (Nat.le_refl _) (by omega) (by omega)]
          exact h6
        · by_cases hji : j = i
          · subst hji; rw [lset_same]; simp [h7]
          · rw [lset_ne _ _ hji]; exact h7
    · intro a m h
      rcases key h with ⟨_, _, hh⟩ | ⟨hne, h⟩
      · cases hh
      have h5 := (I.tile.al h).2.2.1
      show _ ∧ _ ∧ mem' a = m + 3 ∧ mem' (a + 8) = 1
      rw [same h hne (Nat.le_refl _) (by omega) (by intro h; cases h),
        same h hne (by omega) (by omega) (by intro h; cases h)]
      exact I.dv h
    · intro a m k h hk
      rcases key h with ⟨_, _, rfl⟩ | ⟨hne, h⟩
      · rcases hk with h | h <;> cases h
      have h5 := (I.tile.al h).2.2.1
      show _ ∧ mem' a = 35 ∧ mem' (a + 8) = 0
      rw [same h hne (Nat.le_refl _) (by omega) (by rintro rfl; rcases hk with h | h <;> cases h),
        same h hne (by omega) (by omega) (by rintro rfl; rcases hk with h | h <;> cases h)]
      exact I.mark h hk
    · intro h; exact key' (I.dv1 h) (by decide)
    · intro j
      by_cases hji : j = i
      · subst hji
        rw [lset_same]
        show Lk mem' (upd s.bkt j o j) (o :: L j)
        rw [upd_same]
        refine ⟨rfl, ?_, ?_⟩
        · intro y hy
          cases hL : L j with
          | nil => rw [hL] at hy; simp at hy
          | cons z l =>
            have hlk := I.lk j
            rw [hL] at hlk hy
            obtain ⟨hz, _⟩ := hlk
            simp at hy
            subst hy
            rw [← hz]
            exact h3 (by rw [hz]; exact I.ne0 (i := j) (by rw [hL]; simp))
        · rw [h2]
          refine (I.lk j).frame_head (fun x hx => ?_) (I.nd j)
          obtain ⟨m, hm, _⟩ := I.lm hx
          have h5 := (I.tile.al hm).2.2.1
          have hne : x ≠ o := fun h => hoL j (h ▸ hx)
          refine ⟨same hm hne (by omega) (by omega) (by omega), fun hxb => ?_⟩
          refine h4 _ ?_ ?_
          · rcases I.tile.sep hm ho hne with h | h <;> omega
          · left; omega
      · rw [lset_ne _ _ hji]
        show Lk mem' (upd s.bkt i o j) (L j)
        rw [upd_ne _ _ hji]
        refine (I.lk j).frame fun x hx => ?_
        obtain ⟨m, hm, hm'⟩ := I.lm hx
        have h5 := (I.tile.al hm).2.2.1
        have hne : x ≠ o := fun h => hoL j (h ▸ hx)
        refine ⟨same hm hne (by omega) (by omega) (by omega), ?_⟩
        refine h4 _ ?_ ?_
        · rcases I.tile.sep hm ho hne with h | h <;> omega
        · by_cases h0 : s.bkt i = 0
          · exact .inr h0
          · left
            intro he
            have : x = s.bkt i := by omega
            rw [this] at hx
            exact hji (I.fin1 hx (hfl h0))
    · intro j a h
      by_cases hji : j = i
      · subst hji
        rw [lset_same] at h
        rcases List.mem_cons.1 h with rfl | h
        · exact ⟨n, mset_same _ _ _, hi⟩
        · obtain ⟨m, hm, h6⟩ := I.lm h
          exact ⟨m, key' hm (by decide), h6⟩
      · rw [lset_ne _ _ hji] at h
        obtain ⟨m, hm, h6⟩ := I.lm h
        exact ⟨m, key' hm (by decide), h6⟩
    · intro j
      by_cases hji : j = i
      · subst hji; rw [lset_same]; exact List.nodup_cons.2 ⟨hoL j, I.nd j⟩
      · rw [lset_ne _ _ hji]; exact I.nd j
  · intro a m ha
    have hne : a ≠ o := by rintro rfl; rw [ho] at ha; cases ha
    have h5 := (I.tile.al ha).2.2.1
    refine ⟨?_, fun x hx hx' => same ha hne (by omega) hx' (by intro h; cases h)⟩
    show mem' a / 4 = _
    rw [same ha hne (Nat.le_refl _) (by omega) (by intro h; cases h)]

theorem Inv.push {s B L} (I : Inv s B L) (hb : Nat) {o n i} (ho : B o = some (n, .limbo)) (hi : idx n = some i) :
    Inv (push hb s o n i) (mset B o (some (n, .free))) (lset L i (o :: L i)) ∧ Keeps B s (push hb s o n i) := by
  have hal := I.tile.al ho
  have hfl : s.bkt i ≠ 0 → s.bkt i + 16 < o ∨ o + n ≤ s.bkt i + 16 := by
    intro h
    obtain ⟨l, hl⟩ := (I.lk i).head h
    obtain ⟨m, hm, _⟩ := I.lm (i := i) (a := s.bkt i) (by rw [hl]; simp)
    have h5 := (I.tile.al hm).2.2.1
    have hne : s.bkt i ≠ o := by intro h; rw [h, ho] at hm; cases hm
    rcases I.tile.sep hm ho hne with h | h <;> omega
  have hst : ∃ mem', Alloc.push hb s o n i = { s with mem := mem', bkt := upd s.bkt i o } ∧
      mem' o = n + 1 ∧ mem' (o + 8) = s.bkt i ∧ (s.bkt i ≠ 0 → mem' (s.bkt i + 16) = o) ∧
      (∀ x, x < o ∨ o + n ≤ x → x ≠ s.bkt i + 16 ∨ s.bkt i = 0 → mem' x = s.mem x) := by
    unfold Alloc.push
    by_cases h0 : s.bkt i ≠ 0
    · simp only [h0, if_true, ne_eq, not_false_eq_true]
      refine ⟨_, rfl, ?_, ?_, ?_, ?_⟩
      · show upd (upd (upd (upd _ _ _) _ _) _ _) _ _ o = _
        rw [upd_ne _ _ (by omega), upd_ne _ _ (by omega), upd_ne _ _ (by omega), upd_same]
        simp only [freeHead, pure]; omega
      · show upd (upd (upd (upd _ _ _) _ _) _ _) _ _ (o + 8) = _
        rw [upd_ne _ _ (by omega), upd_same]
      · intro _
        have := hfl h0
        show upd (upd (upd (upd (upd _ _ _) _ _) _ _) _ _) _ _ _ = _
        rw [upd_ne _ _ (by omega), upd_ne _ _ (by omega), upd_ne _ _ (by omega), upd_ne _ _ (by omega), upd_same]
      · intro x hx hx'
        have hx'' : x ≠ s.bkt i + 16 := by rcases hx' with h | h; exact h; exact h.elim
        show upd (upd (upd (upd (upd _ _ _) _ _) _ _) _ _) _ _ _ = _
        rw [upd_ne _ _ (by omega), upd_ne _ _ (by omega), upd_ne _ _ (by omega), upd_ne _ _ (by omega), upd_ne _ _ hx'']
    · have h0' : s.bkt i = 0 := by omega
      simp only [h0', if_false, ne_eq, not_true_eq_false]
      refine ⟨_, rfl, ?_, ?_, ?_, ?_⟩
      · show upd (upd (upd (upd _ _ _) _ _) _ _) _ _ o = _
        rw [upd_ne _ _ (by omega), upd_ne _ _ (by omega), upd_ne _ _ (by omega), upd_same]
        simp only [freeHead, pure]; omega
      · show upd (upd (upd (upd _ _ _) _ _) _ _) _ _ (o + 8) = _
        rw [upd_ne _ _ (by omega), upd_same]
      · intro h; exact absurd h (by simp)
      · intro x hx _
        show upd (upd (upd (upd _ _ _) _ _) _ _) _ _ _ = _
        rw [upd_ne _ _ (by omega), upd_ne _ _ (by omega), upd_ne _ _ (by omega), upd_ne _ _ (by omega)]
  obtain ⟨mem', he, h1, h2, h3, h4⟩ := hst
  rw [he]
  exact I.link ho hi h1 h2 h3 h4

/-- A block leaves its list: the links of the remaining elements are as required, nothing else changes
except back pointers of first elements. -/
theorem Inv.cut {s B L} (I : Inv s B L) {o n i} (ho : B o = some (n, .free)) (hi : idx n = some i)
    {mem' : Nat → Nat} {p : Nat} (hl : Lk mem' p ((L i).erase o))
    (h4 : ∀ x, (∀ y ∈ L i, y ≠ o → x ≠ y + 8 ∧ x ≠ y + 16) → mem' x = s.mem x) :
    Inv { s with mem := mem', bkt := upd s.bkt i p } (mset B o (some (n, .limbo))) (lset L i ((L i).erase o)) ∧
    Keeps B s { s with mem := mem', bkt := upd s.bkt i p } := by
  have hoi : o ∈ L i := by
    obtain ⟨_, j, hj, h⟩ := I.free ho
    rw [hi] at hj; cases hj; exact h
  have key : ∀ {a m k}, mset B o (some (n, .limbo)) a = some (m, k) → k ≠ .limbo →
      a ≠ o ∧ B a = some (m, k) := by
    intro a m k h hk
    rcases mset_eq h with ⟨rfl, hh⟩ | ⟨h1, h⟩
    · cases hh; exact absurd rfl hk
    · exact ⟨h1, h⟩
  have key' : ∀ {a m k}, B a = some (m, k) → a ≠ o → mset B o (some (n, .limbo)) a = some (m, k) := by
    intro a m k h hk
    rw [mset_ne _ _ hk, h]
  -- words other than the links of members of the list
  have same : ∀ {a m k x}, B a = some (m, k) → a ≤ x → x < a + m →
      (a ∈ L i → x ≠ a + 8 ∧ x ≠ a + 16) → mem' x = s.mem x := by
    intro a m k x ha hx1 hx2 hk
    refine h4 x fun y hy _ => ?_
    obtain ⟨m', hm', _⟩ := I.lm hy
    have h5 := (I.tile.al hm').2.2.1
    by_cases hae : a = y
    · subst hae; exact hk hy
    · rcases I.tile.sep ha hm' hae with h | h <;> omega
  have notin : ∀ {a m k}, B a = some (m, k) → k ≠ .free → a ∉ L i := by
    intro a m k ha hk h
    obtain ⟨m', hm', _⟩ := I.lm h
    rw [ha] at hm'; cases hm'; exact hk rfl
  constructor
  · refine ⟨I.tile.relabel ho ⟨by decide, by decide⟩ ⟨by decide, by decide⟩, ?_, ?_, ?_, ?_, ?_, I.dv0, ?_, ?_, ?_, I.fsz⟩
    · intro a m h
      obtain ⟨hne, h⟩ := key h (by decide)
      have h5 := (I.tile.al h).2.2.1
      show mem' a % 2 = 0 ∧ usedSize (mem' a) = m
      rw [same h (Nat.le_refl _) (by omega) (fun hh => absurd hh (notin h (by decide)))]
      exact I.used h
    · intro a m h
      obtain ⟨hne, h⟩ := key h (by decide)
      have h5 := (I.tile.al h).2.2.1
      obtain ⟨h6, j, hj, h7⟩ := I.free h
      refine ⟨?_, j, hj, ?_⟩
      · show mem' a = m + 1
        rw [same h (Nat.le_refl _) (by omega) (by omega)]
        exact h6
      · by_cases hji : j = i
        · subst hji; rw [lset_same]; exact (List.mem_erase_of_ne hne).2 h7
        · rw [lset_ne _ _ hji]; exact h7
    · intro a m h
      obtain ⟨hne, h⟩ := key h (by decide)
      have h5 := (I.tile.al h).2.2.1
      show _ ∧ _ ∧ mem' a = m + 3 ∧ mem' (a + 8) = 1
      rw [same h (Nat.le_refl _) (by omega) (fun hh => absurd hh (notin h (by decide))),
        same h (by omega) (by omega) (fun hh => absurd hh (notin h (by decide)))]
      exact I.dv h
    · intro a m k h hk
      have hk' : k ≠ .limbo ∧ k ≠ .free := by rcases hk with rfl | rfl <;> decide
      obtain ⟨hne, h⟩ := key h hk'.1
      have h5 := (I.tile.al h).2.2.1
      show _ ∧ mem' a = 35 ∧ mem' (a + 8) = 0
      rw [same h (Nat.le_refl _) (by omega) (fun hh => absurd hh (notin h hk'.2)),
        same h (by omega) (by omega) (fun hh => absurd hh (notin h hk'.2))]
      exact I.mark h hk
    · intro h
      have h1 := I.dv1 h
      exact key' h1 (by rintro he; rw [he, ho] at h1; cases h1)
    · intro j
      by_cases hji : j = i
      · subst hji
        rw [lset_same]
        show Lk mem' (upd s.bkt j p j) _
        rw [upd_same]; exact hl
      · rw [lset_ne _ _ hji]
        show Lk mem' (upd s.bkt i p j) (L j)
        rw [upd_ne _ _ hji]
        refine (I.lk j).frame fun x hx => ?_
        obtain ⟨m, hm, hm'⟩ := I.lm hx
        have h5 := (I.tile.al hm).2.2.1
        have hnx : x ∉ L i := fun h => hji (I.fin1 hx h)
        exact ⟨same hm (by omega) (by omega) (fun h => absurd h hnx),
          same hm (by omega) (by omega) (fun h => absurd h hnx)⟩
    · intro j a h
      by_cases hji : j = i
      · subst hji
        rw [lset_same] at h
        have hne : a ≠ o := by rintro rfl; exact (List.Nodup.not_mem_erase (I.nd j)) h
        obtain ⟨m, hm, h6⟩ := I.lm (List.mem_of_mem_erase h)
        exact ⟨m, key' hm hne, h6⟩
      · rw [lset_ne _ _ hji] at h
        obtain ⟨m, hm, h6⟩ := I.lm h
        have hne : a ≠ o := by rintro rfl; exact hji (I.fin1 h hoi)
        exact ⟨m, key' hm hne, h6⟩
    · intro j
      by_cases hji : j = i
      · subst hji; rw [lset_same]; exact (I.nd j).erase _
      · rw [lset_ne _ _ hji]; exact I.nd j
  · intro a m ha
    have h5 := (I.tile.al ha).2.2.1
    refine ⟨?_, fun x hx hx' => same ha (by omega) hx' (fun hh => absurd hh (notin ha (by decide)))⟩
    show mem' a / 4 = _
    rw [same ha (Nat.le_refl _) (by omega) (fun hh => absurd hh (notin ha (by decide)))]

theorem erase_head {a : Nat} {l : List Nat} : (a :: l).erase a = l := by simp

/-- the first element leaves its list -/
theorem Inv.cutHead {s B L} (I : Inv s B L) {n i} (h0 : s.bkt i ≠ 0) (ho : B (s.bkt i) = some (n, .free))
    (hi : idx n = some i) {mem' : Nat → Nat}
    (h4 : ∀ x, x ≠ s.mem (s.bkt i + 8) + 16 ∨ s.mem (s.bkt i + 8) = 0 → mem' x = s.mem x) :
    Inv { s with mem := mem', bkt := upd s.bkt i (s.mem (s.bkt i + 8)) }
      (mset B (s.bkt i) (some (n, .limbo))) (lset L i ((L i).erase (s.bkt i))) ∧
    Keeps B s { s with mem := mem', bkt := upd s.bkt i (s.mem (s.bkt i + 8)) } := by
  obtain ⟨l, hl⟩ := (I.lk i).head h0
  have hlk := I.lk i
  have hnd := I.nd i
  have hsep : ∀ x y, x ∈ L i → y ∈ L i → x ≠ y → x + 32 ≤ y ∨ y + 32 ≤ x := fun x y hx hy h => I.lsep hx hy h
  rw [hl] at hlk hnd hsep
  obtain ⟨_, h2, h3⟩ := hlk
  have hnx : s.mem (s.bkt i + 8) ≠ 0 → s.mem (s.bkt i + 8) ∈ l := by
    intro h
    obtain ⟨l', hl'⟩ := h3.head h
    rw [hl']; simp
  refine I.cut ho hi (p := s.mem (s.bkt i + 8)) ?_ ?_
  · rw [hl, erase_head]
    refine h3.frame_head (fun x hx => ⟨?_, fun hne => ?_⟩) (List.nodup_cons.1 hnd).2
    · refine h4 _ ?_
      by_cases hz : s.mem (s.bkt i + 8) = 0
      · exact .inr hz
      · left
        have h5 := hnx hz
        by_cases hxe : x = s.mem (s.bkt i + 8)
        · omega
        · have := hsep x _ (List.mem_cons_of_mem _ hx) (List.mem_cons_of_mem _ h5) hxe
          omega
    · exact h4 _ (.inl (by omega))
  · intro x hx
    refine h4 x ?_
    by_cases hz : s.mem (s.bkt i + 8) = 0
    · exact .inr hz
    · left
      have h5 := hnx hz
      refine (hx _ (by rw [hl]; exact List.mem_cons_of_mem _ h5) ?_).2
      intro he
      exact (List.nodup_cons.1 hnd).1 (he ▸ h5)

theorem Inv.pop {s B L} (I : Inv s B L) (hb : Nat) {n i} (h0 : s.bkt i ≠ 0)
    (ho : B (s.bkt i) = some (n, .free)) (hi : idx n = some i) :
    Inv (pop hb s i) (mset B (s.bkt i) (some (n, .limbo))) (lset L i ((L i).erase (s.bkt i))) ∧
    Keeps B s (pop hb s i) := by
  unfold Alloc.pop
  by_cases hz : s.mem (s.bkt i + 8) = 0
  · simp only [hz, ne_eq, not_true_eq_false, if_false]
    have := I.cutHead h0 ho hi (mem' := s.mem) (fun _ _ => rfl)
    rw [hz] at this
    exact this
  · simp only [hz, ne_eq, not_false_eq_true, if_true]
    exact I.cutHead h0 ho hi (mem' := upd s.mem (s.mem (s.bkt i + 8) + 16) (hb + 8 * i))
      (fun x hx => upd_ne _ _ (by rcases hx with h | h; exact h; exact absurd h hz))

theorem Inv.unlink {s B L} (I : Inv s B L) {o n i} (ho : B o = some (n, .free)) (hi : idx n = some i) :
    Inv (unlink s o i) (mset B o (some (n, .limbo))) (lset L i ((L i).erase o)) ∧ Keeps B s (unlink s o i) := by
  have hoi : o ∈ L i := by
    obtain ⟨_, j, hj, h⟩ := I.free ho
    rw [hi] at hj; cases hj; exact h
  have ho0 := I.ne0 hoi
  unfold Alloc.unlink
  by_cases hh : s.bkt i = o
  · subst hh
    simp only [if_true]
    by_cases hz : s.mem (s.bkt i + 8) = 0
    · simp only [hz, ne_eq, not_true_eq_false, if_false]
      have := I.cutHead ho0 ho hi (mem' := s.mem) (fun _ _ => rfl)
      rw [hz] at this
      exact this
    · simp only [hz, ne_eq, not_false_eq_true, if_true]
      exact I.cutHead ho0 ho hi (mem' := upd s.mem (s.mem (s.bkt i + 8) + 16) (s.mem (s.bkt i + 16)))
        (fun x hx => upd_ne _ _ (by rcases hx with h | h; exact h; exact absurd h hz))
  · simp only [hh, if_false]
    obtain ⟨i1, i2, i3, i4⟩ := (I.lk i).unlink (I.nd i) (fun x y hx hy h => I.lsep hx hy h)
      (fun x hx => I.ne0 hx) hoi hh
    have hupd : ∀ t : Nat → Nat, { s with mem := t } = { s with mem := t, bkt := upd s.bkt i (s.bkt i) } := by
      intro t
      congr 1
      funext x
      simp only [upd]
      split
      · rename_i h; rw [h]
      · rfl
    by_cases hz : s.mem (o + 8) = 0
    · simp only [hz, ne_eq, not_true_eq_false, if_false]
      have hst : s.store (s.mem (o + 16) + 8) 0 =
        { s with mem := upd s.mem (s.mem (o + 16) + 8) 0, bkt := upd s.bkt i (s.bkt i) } := hupd _
      rw [hst]
      refine I.cut ho hi ?_ ?_
      · refine i4 _ ?_ ?_ ?_
        · rw [upd_same, hz]
        · intro h; exact absurd hz h
        · intro x hx hxo
          refine ⟨fun h => upd_ne _ _ (by omega), fun _ => upd_ne _ _ ?_⟩
          by_cases hxe : x = s.mem (o + 16)
          · omega
          · have := I.lsep hx i1 hxe; omega
      · intro x hx
        exact upd_ne _ _ (hx _ i1 i2).1
    · simp only [hz, ne_eq, not_false_eq_true, if_true]
      obtain ⟨j1, j2⟩ := i3 hz
      have hst : (s.store (s.mem (o + 16) + 8) (s.mem (o + 8))).store (s.mem (o + 8) + 16) (s.mem (o + 16)) =
        { s with mem := upd (upd s.mem (s.mem (o + 16) + 8) (s.mem (o + 8))) (s.mem (o + 8) + 16) (s.mem (o + 16)),
                 bkt := upd s.bkt i (s.bkt i) } := hupd _
      rw [hst]
      have hpn : s.mem (o + 16) + 8 ≠ s.mem (o + 8) + 16 := by
        by_cases he : s.mem (o + 16) = s.mem (o + 8)
        · omega
        · have := I.lsep i1 j1 he; omega
      refine I.cut ho hi ?_ ?_
      · refine i4 _ ?_ ?_ ?_
        · rw [upd_ne _ _ hpn, upd_same]
        · intro _; rw [upd_same]
        · intro x hx hxo
          refine ⟨fun h => ?_, fun h => ?_⟩
          · rw [upd_ne, upd_ne _ _ (by omega)]
            by_cases hxe : x = s.mem (o + 8)
            · omega
            · have := I.lsep hx j1 hxe; omega
          · rw [upd_ne _ _ (by omega), upd_ne]
            by_cases hxe : x = s.mem (o + 16)
            · omega
            · have := I.lsep hx i1 hxe; omega
      · intro x hx
        rw [upd_ne _ _ (hx _ j1 j2).2, upd_ne _ _ (hx _ i1 i2).1]

end Gkc.Alloc
