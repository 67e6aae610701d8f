import Verif.ExtHash
import Mathlib.Data.List.Nodup
import Mathlib.Data.List.Perm.Subperm
import Mathlib.Tactic.Tauto
/-
The invariant of the table with extendible hashing.
-/
namespace Gkc.Eh
open Gkc.Jq (rehash)

attribute [local irreducible] rehash

/-- what the table is: `kvs` are the pairs, the bucket `x` may have one pair too many -/
structure Inv (t : Tbl) (kvs : List (Nat × Nat)) (x : Option Nat) : Prop where
  pos : 1 ≤ t.level
  top : t.level < maxLevel
  made : ∀ i b, i < 2 ^ t.level → t.dir i = some b → b < t.next
  small : ∀ i b, i < 2 ^ t.level → t.dir i = some b → (t.heap b).level ≤ t.level
  share : ∀ i j b, i < 2 ^ t.level → j < 2 ^ t.level → t.dir i = some b →
    (t.dir j = some b ↔ j % 2 ^ (t.heap b).level = i % 2 ^ (t.heap b).level)
  home : ∀ i b, i < 2 ^ t.level → t.dir i = some b → ∀ kv ∈ (t.heap b).items,
    rehash kv.1 % 2 ^ (t.heap b).level = i % 2 ^ (t.heap b).level
  content : ∀ kv, kv ∈ kvs ↔ ∃ b, t.dir (rehash kv.1 % 2 ^ t.level) = some b ∧ kv ∈ (t.heap b).items
  fill : ∀ i b, i < 2 ^ t.level → t.dir i = some b → (t.heap b).items.length ≤ cap + 1 ∧ (some b ≠ x → (t.heap b).items.length ≤ cap)
  apart : (kvs.map (·.1)).Nodup → ∀ i b, i < 2 ^ t.level → t.dir i = some b → ((t.heap b).items.map (·.1)).Nodup

theorem inv_init : Inv init [] none where
  pos := Nat.le_refl _
  top := by decide
  made _ _ _ h := by cases h
  small _ _ _ h := by cases h
  share _ _ _ _ _ h := by cases h
  home _ _ _ h := by cases h
  content kv := by simp [init]
  fill _ _ _ h := by cases h
  apart _ _ _ _ h := by cases h

theorem mod_mod_pow (x : Nat) {a b : Nat} (h : a ≤ b) : x % 2 ^ b % 2 ^ a = x % 2 ^ a :=
  Nat.mod_mod_of_dvd x (Nat.pow_dvd_pow 2 h)

theorem grow_inv {t t' : Tbl} {kvs : List (Nat × Nat)} {x : Option Nat} (h : Inv t kvs x) (hg : grow t = some t') :
    Inv t' kvs x ∧ t'.level = t.level + 1 ∧ t'.heap = t.heap ∧ t'.next = t.next ∧ ∀ i, i < 2 ^ (t.level + 1) → t'.dir i = t.dir (i % 2 ^ t.level) := by
  unfold grow at hg
  split at hg
  · cases hg
  · next hm =>
    cases hg
    have hd : ∀ i, i < 2 ^ (t.level + 1) → (if i < 2 ^ t.level then t.dir i else t.dir (i - 2 ^ t.level)) = t.dir (i % 2 ^ t.level) := by
      intro i hi
      split
      · next h => rw [Nat.mod_eq_of_lt h]
      · next h =>
        rw [Nat.mod_eq_sub_mod (by omega), Nat.mod_eq_of_lt]
        rw [Nat.pow_succ] at hi; omega
    have hlt : ∀ i, i % 2 ^ t.level < 2 ^ t.level := fun i => Nat.mod_lt _ (Nat.two_pow_pos _)
    refine ⟨⟨by simp, by simp only; omega, ?_, ?_, ?_, ?_, ?_, ?_, ?_⟩, rfl, rfl, rfl, hd⟩
    · intro i b hi hb; simp only at hi hb ⊢; rw [hd i hi] at hb; exact h.made _ b (hlt i) hb
    · intro i b hi hb; simp only at hi hb ⊢; rw [hd i hi] at hb; exact Nat.le_succ_of_le (h.small _ b (hlt i) hb)
    · intro i j b hi hj hb
      simp only at hi hj hb ⊢
      rw [hd i hi] at hb
      rw [hd j hj, h.share _ _ b (hlt i) (hlt j) hb, mod_mod_pow _ (h.small _ b (hlt i) hb), mod_mod_pow _ (h.small _ b (hlt i) hb)]
    · intro i b hi hb kv hkv
      simp only at hi hb hkv ⊢
      rw [hd i hi] at hb
      rw [h.home _ b (hlt i) hb kv hkv, mod_mod_pow _ (h.small _ b (hlt i) hb)]
    · intro kv
      simp only
      rw [hd _ (Nat.mod_lt _ (Nat.two_pow_pos _)), mod_mod_pow _ (Nat.le_succ _)]
      exact h.content kv
    · intro i b hi hb; simp only at hi hb ⊢; rw [hd i hi] at hb; exact h.fill _ b (hlt i) hb
    · intro hn i b hi hb; simp only at hi hb ⊢; rw [hd i hi] at hb; exact h.apart hn _ b (hlt i) hb

theorem place_eq {j s base : Nat} (hb : base < 2 ^ s) : (j <<< s) ||| base = j * 2 ^ s + base := by
  rw [← Nat.shiftLeft_add_eq_or_of_lt hb, Nat.shiftLeft_eq]

theorem place_inj {j m s base : Nat} (hb : base < 2 ^ s) (h : (j <<< s) ||| base = (m <<< s) ||| base) : j = m := by
  rw [place_eq hb, place_eq hb] at h
  exact Nat.eq_of_mul_eq_mul_right (Nat.two_pow_pos s) (by omega)

theorem repoint_ok {old new base s : Nat} (hb : base < 2 ^ s) : ∀ (n j : Nat) (d : Nat → Option Nat),
    (∀ m, j ≤ m → m < j + n → d ((m <<< s) ||| base) = some old) →
    ∃ d', repoint old new base s n j d = some d' ∧
      (∀ m, j ≤ m → m < j + n → d' ((m <<< s) ||| base) = some new) ∧
      ∀ i, (∀ m, j ≤ m → m < j + n → i ≠ (m <<< s) ||| base) → d' i = d i
  | 0, j, d, _ => ⟨d, rfl, fun m h1 h2 => by omega, fun _ _ => rfl⟩
  | n + 1, j, d, h => by
    have h0 := h j (Nat.le_refl _) (by omega)
    obtain ⟨d', e, h1, h2⟩ := repoint_ok hb n (j + 1) (fun i => if i = (j <<< s) ||| base then some new else d i) (fun m hm hm' => by
      have : (m <<< s) ||| base ≠ (j <<< s) ||| base := fun e => by have := place_inj hb e; omega
      simp only [this, if_false]
      exact h m (by omega) (by omega))
    refine ⟨d', by simp only [repoint, h0, if_true]; exact e, fun m hm hm' => ?_, fun i hi => ?_⟩
    · by_cases hmj : m = j
      · subst hmj
        rw [h2 _ (fun m' h3 h4 e => by have := place_inj hb e; omega)]; simp
      · exact h1 m (by omega) (by omega)
    · rw [h2 i (fun m h3 h4 => hi m (by omega) (by omega))]
      simp [hi j (Nat.le_refl _) (by omega)]

/-- what a split does with the table -/
theorem split_inv {t t' : Tbl} {kvs : List (Nat × Nat)} {b nb lv low i0 : Nat} (h : Inv t kvs (some b)) (hi0 : i0 < 2 ^ t.level) (hb : t.dir i0 = some b)
    (hlv : (t.heap b).level = lv) (hlt : lv < t.level) (hlow : low = i0 % 2 ^ lv) (hnb : nb = t.next)
    (hlevel : t'.level = t.level) (hnext : t'.next = t.next + 1)
    (hdir : ∀ j, j < 2 ^ t.level → t'.dir j = if j % 2 ^ (lv + 1) = 2 ^ lv + low then some nb else t.dir j)
    (hh1 : t'.heap nb = ⟨lv + 1, ((t.heap b).items.filter fun kv => (rehash kv.1).testBit lv).reverse⟩)
    (hh2 : t'.heap b = ⟨lv + 1, (t.heap b).items.filter fun kv => !(rehash kv.1).testBit lv⟩)
    (hh3 : ∀ c, c ≠ nb → c ≠ b → t'.heap c = t.heap c) (hfull : (t.heap b).items.length > cap) :
    Inv t' kvs (some (if (t'.heap nb).items.length > cap then nb else b)) ∧ t'.dir (low % 2 ^ t.level) = some b ∧
      t'.dir ((2 ^ lv + low) % 2 ^ t.level) = some nb := by
  have hbn : b ≠ nb := by have := h.made i0 b hi0 hb; omega
  have hlowlt : low < 2 ^ lv := by rw [hlow]; exact Nat.mod_lt _ (Nat.two_pow_pos _)
  have hpow : 2 ^ (lv + 1) = 2 ^ lv + 2 ^ lv := by rw [Nat.pow_succ]; omega
  have hle : 2 ^ (lv + 1) ≤ 2 ^ t.level := Nat.pow_le_pow_right (by decide) hlt
  -- the two values of the next bit
  have bit : ∀ x, x % 2 ^ lv = low → (x % 2 ^ (lv + 1) = 2 ^ lv + low ∧ x.testBit lv = true ∨ x % 2 ^ (lv + 1) = low ∧ x.testBit lv = false) := by
    intro x hx
    have h1 : x % 2 ^ (lv + 1) = x % 2 ^ lv + 2 ^ lv * (x / 2 ^ lv % 2) := Nat.mod_pow_succ
    rw [Nat.testBit_eq_decide_div_mod_eq]
    rcases Nat.mod_two_eq_zero_or_one (x / 2 ^ lv) with h0 | h0
    · right; rw [h0] at h1; simp only [h0]; exact ⟨by omega, rfl⟩
    · left; rw [h0] at h1; simp only [h0]; exact ⟨by omega, rfl⟩
  have unbit : ∀ x, (x % 2 ^ (lv + 1) = 2 ^ lv + low ∨ x % 2 ^ (lv + 1) = low) → x % 2 ^ lv = low := by
    intro x hx
    rw [← mod_mod_pow x (Nat.le_succ lv)]
    rcases hx with hx | hx <;> rw [hx]
    · rw [Nat.add_mod_left, Nat.mod_eq_of_lt hlowlt]
    · exact Nat.mod_eq_of_lt hlowlt
  have isb : ∀ j, j < 2 ^ t.level → (t.dir j = some b ↔ j % 2 ^ lv = low) := by
    intro j hj
    have := h.share i0 j b hi0 hj hb
    rw [hlv, ← hlow] at this
    exact this
  have old : ∀ j c, j < 2 ^ t.level → t.dir j = some c → c ≠ nb := fun j c hj hc => by have := h.made j c hj hc; omega
  -- what the new directory points to
  have isnb' : ∀ j, j < 2 ^ t.level → (t'.dir j = some nb ↔ j % 2 ^ (lv + 1) = 2 ^ lv + low) := by
    intro j hj
    rw [hdir j hj]
    split
    · next h => simp [h]
    · next h' => simp only [h', iff_false]; intro hc; exact old j nb hj hc rfl
  have isb' : ∀ j, j < 2 ^ t.level → (t'.dir j = some b ↔ j % 2 ^ (lv + 1) = low) := by
    intro j hj
    rw [hdir j hj]
    split
    · next h' => constructor
                 · intro hc; cases hc; exact absurd rfl hbn
                 · intro hc; have := Nat.two_pow_pos lv; omega
    · next h' =>
      rw [isb j hj]
      constructor
      · intro hc; rcases bit j hc with ⟨e, -⟩ | ⟨e, -⟩
        · exact absurd e h'
        · exact e
      · intro hc; exact unbit j (.inr hc)
  have other : ∀ j c, c ≠ nb → c ≠ b → j < 2 ^ t.level → (t'.dir j = some c ↔ t.dir j = some c) := by
    intro j c hc1 hc2 hj
    rw [hdir j hj]
    split
    · next h' =>
      have := (isb j hj).2 (unbit j (.inl h'))
      rw [this]
      constructor
      · intro e; cases e; exact absurd rfl hc1
      · intro e; cases e; exact absurd rfl hc2
    · rfl
  have l1 : (t'.heap nb).level = lv + 1 := by rw [hh1]
  have l2 : (t'.heap b).level = lv + 1 := by rw [hh2]
  have lens : (t'.heap nb).items.length + (t'.heap b).items.length = (t.heap b).items.length := by
    rw [hh1, hh2]
    simp only [List.length_reverse]
    have := List.length_eq_length_filter_add (l := (t.heap b).items) (fun kv => (rehash kv.1).testBit lv)
    exact this.symm
  have hmost := (h.fill i0 b hi0 hb).1
  have cases3 : ∀ c, c = nb ∨ c = b ∨ (c ≠ nb ∧ c ≠ b) := fun c => by tauto
  have homeb : ∀ kv ∈ (t.heap b).items, rehash kv.1 % 2 ^ lv = low := by
    intro kv hkv
    have := h.home i0 b hi0 hb kv hkv
    rw [hlv] at this
    rw [this, hlow]
  refine ⟨⟨by rw [hlevel]; exact h.pos, by rw [hlevel]; exact h.top, ?_, ?_, ?_, ?_, ?_, ?_, ?_⟩, ?_, ?_⟩
  · intro i c hi hc
    rw [hlevel] at hi
    rw [hnext]
    rcases cases3 c with rfl | rfl | ⟨h1, h2⟩
    · omega
    · have := h.made i0 c hi0 hb; omega
    · have := h.made i c hi ((other i c h1 h2 hi).1 hc); omega
  · intro i c hi hc
    rw [hlevel] at hi ⊢
    rcases cases3 c with rfl | rfl | ⟨h1, h2⟩
    · rw [l1]; exact hlt
    · rw [l2]; exact hlt
    · rw [hh3 c h1 h2]; exact h.small i c hi ((other i c h1 h2 hi).1 hc)
  · intro i j c hi hj hc
    rw [hlevel] at hi hj
    rcases cases3 c with rfl | rfl | ⟨h1, h2⟩
    · rw [isnb' j hj, l1, (isnb' i hi).1 hc]
    · rw [isb' j hj, l2, (isb' i hi).1 hc]
    · rw [other j c h1 h2 hj, hh3 c h1 h2]; exact h.share i j c hi hj ((other i c h1 h2 hi).1 hc)
  · intro i c hi hc kv hkv
    rw [hlevel] at hi
    rcases cases3 c with rfl | rfl | ⟨h1, h2⟩
    · rw [l1, (isnb' i hi).1 hc]
      rw [hh1] at hkv
      simp only [List.mem_reverse, List.mem_filter] at hkv
      rcases bit _ (homeb kv hkv.1) with ⟨e, -⟩ | ⟨-, e⟩
      · exact e
      · rw [hkv.2] at e; cases e
    · rw [l2, (isb' i hi).1 hc]
      rw [hh2] at hkv
      simp only [List.mem_filter, Bool.not_eq_true'] at hkv
      rcases bit _ (homeb kv hkv.1) with ⟨-, e⟩ | ⟨e, -⟩
      · rw [hkv.2] at e; cases e
      · exact e
    · rw [hh3 c h1 h2] at hkv ⊢; exact h.home i c hi ((other i c h1 h2 hi).1 hc) kv hkv
  · intro kv
    rw [h.content kv, hlevel]
    have hj : rehash kv.1 % 2 ^ t.level < 2 ^ t.level := Nat.mod_lt _ (Nat.two_pow_pos _)
    have hm1 := mod_mod_pow (rehash kv.1) hlt
    have hm : rehash kv.1 % 2 ^ t.level % 2 ^ (lv + 1) = rehash kv.1 % 2 ^ (lv + 1) := hm1
    constructor
    · rintro ⟨c, hc, hkv⟩
      rcases cases3 c with rfl | rfl | ⟨h1, h2⟩
      · exact absurd rfl (old _ _ hj hc)
      · rcases bit _ (homeb kv hkv) with ⟨e1, e2⟩ | ⟨e1, e2⟩
        · exact ⟨nb, (isnb' _ hj).2 (by rw [hm, e1]), by rw [hh1]; simp [hkv, e2]⟩
        · exact ⟨c, (isb' _ hj).2 (by rw [hm, e1]), by rw [hh2]; simp [hkv, e2]⟩
      · exact ⟨c, (other _ c h1 h2 hj).2 hc, by rw [hh3 c h1 h2]; exact hkv⟩
    · rintro ⟨c, hc, hkv⟩
      rcases cases3 c with rfl | rfl | ⟨h1, h2⟩
      · rw [hh1] at hkv
        simp only [List.mem_reverse, List.mem_filter] at hkv
        exact ⟨b, (isb _ hj).2 (unbit _ (.inl ((isnb' _ hj).1 hc))), hkv.1⟩
      · rw [hh2] at hkv
        simp only [List.mem_filter] at hkv
        exact ⟨c, (isb _ hj).2 (unbit _ (.inr ((isb' _ hj).1 hc))), hkv.1⟩
      · exact ⟨c, (other _ c h1 h2 hj).1 hc, by rw [hh3 c h1 h2] at hkv; exact hkv⟩
  · intro i c hi hc
    rw [hlevel] at hi
    rcases cases3 c with rfl | rfl | ⟨h1, h2⟩
    · refine ⟨by omega, fun hx => ?_⟩
      by_contra hn
      rw [if_pos (by omega)] at hx
      exact hx rfl
    · refine ⟨by omega, fun hx => ?_⟩
      split at hx
      · omega
      · exact absurd rfl hx
    · rw [hh3 c h1 h2]
      have := h.fill i c hi ((other i c h1 h2 hi).1 hc)
      exact ⟨this.1, fun _ => this.2 (fun e => h2 (Option.some.inj e))⟩
  · intro hn i c hi hc
    rw [hlevel] at hi
    have hap := h.apart hn i0 b hi0 hb
    rcases cases3 c with rfl | rfl | ⟨h1, h2⟩
    · rw [hh1, List.map_reverse, List.nodup_reverse]
      exact hap.sublist (List.filter_sublist.map _)
    · rw [hh2]
      exact hap.sublist (List.filter_sublist.map _)
    · rw [hh3 c h1 h2]; exact h.apart hn i c hi ((other i c h1 h2 hi).1 hc)
  · rw [isb' _ (Nat.mod_lt _ (Nat.two_pow_pos _)), Nat.mod_eq_of_lt (show low < 2 ^ t.level by omega), Nat.mod_eq_of_lt (by omega)]
  · rw [isnb' _ (Nat.mod_lt _ (Nat.two_pow_pos _)), Nat.mod_eq_of_lt (show 2 ^ lv + low < 2 ^ t.level by omega), Nat.mod_eq_of_lt (by omega)]

theorem splitIn_ok {t : Tbl} {kvs : List (Nat × Nat)} {b i0 : Nat} (h : Inv t kvs (some b)) (hi0 : i0 < 2 ^ t.level) (hb : t.dir i0 = some b)
    (hlt : (t.heap b).level < t.level) (hfull : (t.heap b).items.length > cap) :
    ∃ t' nb i1, splitIn t b = some (t', nb) ∧ t'.level = t.level ∧ i1 < 2 ^ t'.level ∧
      t'.dir i1 = some (if (t'.heap nb).items.length > cap then nb else b) ∧
      (t'.heap (if (t'.heap nb).items.length > cap then nb else b)).level = (t.heap b).level + 1 ∧
      Inv t' kvs (some (if (t'.heap nb).items.length > cap then nb else b)) := by
  obtain ⟨⟨k0, v0⟩, r, hit⟩ : ∃ kv r, (t.heap b).items = kv :: r := by
    cases hc : (t.heap b).items with
    | nil => rw [hc] at hfull; simp at hfull
    | cons kv r => exact ⟨kv, r, rfl⟩
  have hbn : b ≠ t.next := by have := h.made i0 b hi0 hb; omega
  have hlow : rehash k0 % 2 ^ (t.heap b).level = i0 % 2 ^ (t.heap b).level :=
    h.home i0 b hi0 hb (k0, v0) (by rw [hit]; exact List.mem_cons_self ..)
  have hlowlt : rehash k0 % 2 ^ (t.heap b).level < 2 ^ (t.heap b).level := Nat.mod_lt _ (Nat.two_pow_pos _)
  have hpow : 2 ^ ((t.heap b).level + 1) = 2 ^ (t.heap b).level + 2 ^ (t.heap b).level := by rw [Nat.pow_succ]; omega
  have hbase : 2 ^ (t.heap b).level ||| rehash k0 % 2 ^ (t.heap b).level = 2 ^ (t.heap b).level + rehash k0 % 2 ^ (t.heap b).level :=
    (Nat.two_pow_add_eq_or_of_lt hlowlt 1 |> fun e => by simpa using e.symm)
  -- finishing, whatever the directory is made by
  have fin : ∀ (d : Nat → Option Nat) (heap : Nat → Bucket),
      (∀ j, j < 2 ^ t.level → d j = if j % 2 ^ ((t.heap b).level + 1) = 2 ^ (t.heap b).level + rehash k0 % 2 ^ (t.heap b).level then some t.next else t.dir j) →
      (∀ i, heap i = if i = t.next then ⟨(t.heap b).level + 1, ((t.heap b).items.filter fun kv => (rehash kv.1).testBit (t.heap b).level).reverse⟩
        else if i = b then ⟨(t.heap b).level + 1, (t.heap b).items.filter fun kv => !(rehash kv.1).testBit (t.heap b).level⟩ else t.heap i) →
      ∃ i1, i1 < 2 ^ t.level ∧ d i1 = some (if (heap t.next).items.length > cap then t.next else b) ∧
        (heap (if (heap t.next).items.length > cap then t.next else b)).level = (t.heap b).level + 1 ∧
        Inv ⟨t.level, d, heap, t.next + 1⟩ kvs (some (if (heap t.next).items.length > cap then t.next else b)) := by
    intro d heap hd hheap
    have e1 := hheap t.next
    rw [if_pos rfl] at e1
    have e2 := hheap b
    rw [if_neg hbn, if_pos rfl] at e2
    obtain ⟨g1, g2, g3⟩ := split_inv (t' := ⟨t.level, d, heap, t.next + 1⟩) h hi0 hb rfl hlt hlow rfl rfl rfl hd e1 e2
      (fun c h1 h2 => by simp only; rw [hheap c, if_neg h1, if_neg h2]) hfull
    by_cases hc : (heap t.next).items.length > cap
    · simp only [hc, if_true] at g1 ⊢
      exact ⟨_, Nat.mod_lt _ (Nat.two_pow_pos _), g3, by rw [e1], g1⟩
    · simp only [hc, if_false] at g1 ⊢
      exact ⟨_, Nat.mod_lt _ (Nat.two_pow_pos _), g2, by rw [e2], g1⟩
  unfold splitIn
  rw [hit] at fin
  simp only [hit]
  split
  · next hl =>
    obtain ⟨i1, a1, a2, a3, a4⟩ := fin (fun i => if i = 2 ^ (t.heap b).level ||| rehash k0 % 2 ^ (t.heap b).level then some t.next else t.dir i) _
      (fun j hj => by
        rw [hbase, hl, Nat.mod_eq_of_lt hj]) (fun i => rfl)
    exact ⟨_, _, i1, rfl, rfl, a1, a2, a3, a4⟩
  · next hl =>
    have hb' : 2 ^ (t.heap b).level ||| rehash k0 % 2 ^ (t.heap b).level < 2 ^ ((t.heap b).level + 1) := by rw [hbase]; omega
    have hsum : 2 ^ (t.level - ((t.heap b).level + 1)) * 2 ^ ((t.heap b).level + 1) = 2 ^ t.level := by
      rw [← Nat.pow_add]; congr 1; omega
    have hin : ∀ m, m < 2 ^ (t.level - ((t.heap b).level + 1)) →
        (m <<< ((t.heap b).level + 1)) ||| (2 ^ (t.heap b).level ||| rehash k0 % 2 ^ (t.heap b).level) < 2 ^ t.level := by
      intro m hm
      rw [place_eq hb']
      calc _ < m * 2 ^ ((t.heap b).level + 1) + 2 ^ ((t.heap b).level + 1) := by omega
        _ = (m + 1) * 2 ^ ((t.heap b).level + 1) := by rw [Nat.add_mul, Nat.one_mul]
        _ ≤ 2 ^ (t.level - ((t.heap b).level + 1)) * 2 ^ ((t.heap b).level + 1) := Nat.mul_le_mul_right _ hm
        _ = _ := hsum
    have hmod : ∀ m, ((m <<< ((t.heap b).level + 1)) ||| (2 ^ (t.heap b).level ||| rehash k0 % 2 ^ (t.heap b).level)) % 2 ^ ((t.heap b).level + 1) =
        2 ^ (t.heap b).level + rehash k0 % 2 ^ (t.heap b).level := by
      intro m
      rw [place_eq hb', Nat.mul_add_mod_self_right, Nat.mod_eq_of_lt hb', hbase]
    obtain ⟨d', e, h1, h2⟩ := repoint_ok (old := b) (new := t.next) hb' (2 ^ (t.level - ((t.heap b).level + 1))) 0 t.dir (fun m _ hm => by
      have hm : m < 2 ^ (t.level - ((t.heap b).level + 1)) := by omega
      rw [h.share i0 _ b hi0 (hin m hm) hb, ← mod_mod_pow _ (Nat.le_succ _), hmod, Nat.add_mod_left, Nat.mod_mod, hlow])
    rw [e]
    obtain ⟨i1, a1, a2, a3, a4⟩ := fin d' _ (fun j hj => by
        split
        · next hj' =>
          have hq : j / 2 ^ ((t.heap b).level + 1) < 2 ^ (t.level - ((t.heap b).level + 1)) := by
            rw [Nat.div_lt_iff_lt_mul (Nat.two_pow_pos _), hsum]; exact hj
          have := h1 (j / 2 ^ ((t.heap b).level + 1)) (Nat.zero_le _) (by omega)
          rw [place_eq hb', hbase, ← hj', Nat.mul_comm, Nat.div_add_mod] at this
          exact this
        · next hj' =>
          refine h2 j (fun m _ _ e => hj' ?_)
          rw [e, hmod]) (fun i => rfl)
    exact ⟨_, _, i1, rfl, rfl, a1, a2, a3, a4⟩

/-- a bucket that is too full at the last level -/
def Crowd (kvs : List (Nat × Nat)) : Prop :=
  ∃ l : List Nat, l.length = cap + 1 ∧ ((kvs.map (·.1)).Nodup → l.Nodup) ∧ (∀ k ∈ l, k ∈ kvs.map (·.1)) ∧
    ∀ k ∈ l, ∀ k' ∈ l, rehash k % 2 ^ (maxLevel - 1) = rehash k' % 2 ^ (maxLevel - 1)

theorem settle_ok : ∀ (n : Nat) {t : Tbl} {kvs : List (Nat × Nat)} {b i : Nat}, Inv t kvs (some b) → i < 2 ^ t.level → t.dir i = some b →
    maxLevel ≤ (t.heap b).level + n →
    ((settle n t b).2 = 0 ∧ Inv (settle n t b).1 kvs none) ∨
      ((settle n t b).2 = -1 ∧ Crowd kvs ∧ ∃ c, Inv (settle n t b).1 kvs (some c))
  | 0, t, kvs, b, i, h, hi, hb, hn => by
    have := h.small i b hi hb
    have := h.top
    omega
  | n + 1, t, kvs, b, i, h, hi, hb, hn => by
    by_cases hf : (t.heap b).items.length > cap
    · simp only [settle, hf, if_true]
      have go : ∀ t1 : Tbl, Inv t1 kvs (some b) → ∀ i1, i1 < 2 ^ t1.level → t1.dir i1 = some b → t1.heap b = t.heap b → (t.heap b).level < t1.level →
          split t b = splitIn t1 b →
          ((match split t b with
            | none => (t, (-1 : Int))
            | some (t', nb) => settle n t' (if (t'.heap nb).items.length > cap then nb else b)).2 = 0 ∧
            Inv (match split t b with
            | none => (t, (-1 : Int))
            | some (t', nb) => settle n t' (if (t'.heap nb).items.length > cap then nb else b)).1 kvs none) ∨
          ((match split t b with
            | none => (t, (-1 : Int))
            | some (t', nb) => settle n t' (if (t'.heap nb).items.length > cap then nb else b)).2 = -1 ∧ Crowd kvs ∧ ∃ c,
            Inv (match split t b with
            | none => (t, (-1 : Int))
            | some (t', nb) => settle n t' (if (t'.heap nb).items.length > cap then nb else b)).1 kvs (some c)) := by
        intro t1 h1 i1 hi1 hb1 hh hl he
        obtain ⟨t', nb, i2, e, e1, e2, e3, e4, e5⟩ := splitIn_ok h1 hi1 hb1 (by rw [hh]; exact hl) (by rw [hh]; exact hf)
        rw [he, e]
        exact settle_ok n e5 e2 e3 (by rw [e4, hh]; omega)
      by_cases hl : (t.heap b).level = t.level
      · cases hg : grow t with
        | none =>
          have hs : split t b = none := by simp [split, hl, hg]
          rw [hs]
          right
          refine ⟨rfl, ?_, b, h⟩
          have htop : t.level = maxLevel - 1 := by
            unfold grow at hg
            split at hg
            · have := h.top; omega
            · cases hg
          refine ⟨(t.heap b).items.map (·.1), ?_, fun hn => h.apart hn i b hi hb, ?_, ?_⟩
          · have := (h.fill i b hi hb).1
            rw [List.length_map]; omega
          · intro k hk
            obtain ⟨kv, hkv, rfl⟩ := List.mem_map.1 hk
            refine List.mem_map.2 ⟨kv, (h.content kv).2 ⟨b, ?_, hkv⟩, rfl⟩
            have := h.home i b hi hb kv hkv
            rw [hl] at this
            rw [this, Nat.mod_eq_of_lt hi, hb]
          · have : ∀ k ∈ (t.heap b).items.map (·.1), rehash k % 2 ^ (maxLevel - 1) = i % 2 ^ (maxLevel - 1) := by
              intro k hk
              obtain ⟨kv, hkv, rfl⟩ := List.mem_map.1 hk
              have := h.home i b hi hb kv hkv
              rwa [hl, htop] at this
            intro k hk k' hk'
            rw [this k hk, this k' hk']
        | some t1 =>
          obtain ⟨g1, g2, g3, g4, g5⟩ := grow_inv h hg
          have hlt : i < 2 ^ t1.level := by rw [g2, Nat.pow_succ]; omega
          exact go t1 g1 i hlt (by rw [g5 i (by rwa [g2] at hlt), Nat.mod_eq_of_lt hi, hb]) (by rw [g3]) (by omega) (by simp [split, hl, hg])
      · have := h.small i b hi hb
        exact go t h i hi hb rfl (by omega) (by simp [split, hl])
    · left
      simp only [settle, hf, if_false, true_and]
      exact ⟨h.pos, h.top, h.made, h.small, h.share, h.home, h.content, fun i c hi hc => ⟨(h.fill i c hi hc).1, fun _ => by
        by_cases hcb : some c = some b
        · cases hcb; omega
        · exact (h.fill i c hi hc).2 hcb⟩, h.apart⟩

theorem put_inv {t : Tbl} {kvs : List (Nat × Nat)} {b k v : Nat} (h : Inv t kvs none) (hb : t.dir (rehash k % 2 ^ t.level) = some b) :
    Inv (put t b k v) ((k, v) :: kvs) (some b) := by
  have hi0 : rehash k % 2 ^ t.level < 2 ^ t.level := Nat.mod_lt _ (Nat.two_pow_pos _)
  have hb1 : (put t b k v).heap b = ⟨(t.heap b).level, (t.heap b).items ++ [(k, v)]⟩ := by simp [put]
  have hb2 : ∀ c, c ≠ b → (put t b k v).heap c = t.heap c := fun c hc => by simp [put, hc]
  have lev : ∀ c, ((put t b k v).heap c).level = (t.heap c).level := fun c => by
    by_cases hc : c = b
    · subst hc; rw [hb1]
    · rw [hb2 c hc]
  refine ⟨h.pos, h.top, h.made, fun i c hi hc => by rw [lev]; exact h.small i c hi hc, fun i j c hi hj hc => by rw [lev]; exact h.share i j c hi hj hc, ?_, ?_, ?_, ?_⟩
  · intro i c hi hc kv hkv
    rw [lev]
    by_cases hcb : c = b
    · subst hcb
      rw [hb1] at hkv
      rcases List.mem_append.1 hkv with hkv | hkv
      · exact h.home i c hi hc kv hkv
      · rw [List.mem_singleton] at hkv
        subst hkv
        have := (h.share i _ c hi hi0 hc).1 hb
        rw [← this, mod_mod_pow _ (h.small i c hi hc)]
    · rw [hb2 c hcb] at hkv; exact h.home i c hi hc kv hkv
  · intro kv
    rw [List.mem_cons, h.content kv]
    constructor
    · rintro (rfl | ⟨c, hc, hkv⟩)
      · exact ⟨b, hb, by rw [hb1]; simp⟩
      · refine ⟨c, hc, ?_⟩
        by_cases hcb : c = b
        · subst hcb; rw [hb1]; simp [hkv]
        · rw [hb2 c hcb]; exact hkv
    · rintro ⟨c, hc, hkv⟩
      by_cases hcb : c = b
      · subst hcb
        rw [hb1] at hkv
        rcases List.mem_append.1 hkv with hkv | hkv
        · exact .inr ⟨c, hc, hkv⟩
        · exact .inl (List.mem_singleton.1 hkv)
      · rw [hb2 c hcb] at hkv; exact .inr ⟨c, hc, hkv⟩
  · intro i c hi hc
    have := (h.fill i c hi hc).2 (by simp)
    by_cases hcb : c = b
    · subst hcb
      rw [hb1]
      simp only [List.length_append, List.length_singleton]
      exact ⟨by omega, fun hx => absurd rfl hx⟩
    · rw [hb2 c hcb]; exact ⟨by omega, fun _ => this⟩
  · intro hn i c hi hc
    rw [List.map_cons, List.nodup_cons] at hn
    have := h.apart hn.2 i c hi hc
    by_cases hcb : c = b
    · subst hcb
      rw [hb1]
      simp only [List.map_append, List.map_cons, List.map_nil]
      refine List.nodup_append.2 ⟨this, by simp, ?_⟩
      intro x hx y hy he
      rw [List.mem_singleton] at hy
      subst hy he
      obtain ⟨kv, hkv, rfl⟩ := List.mem_map.1 hx
      refine hn.1 (List.mem_map.2 ⟨kv, (h.content kv).2 ⟨c, hb, hkv⟩, rfl⟩)
    · rw [hb2 c hcb]; exact this

theorem add_ok {t : Tbl} {kvs : List (Nat × Nat)} {k v : Nat} (h : Inv t kvs none) :
    ∃ t' rc, add t k v = some (t', rc) ∧ (rc = 0 ∧ Inv t' ((k, v) :: kvs) none ∨
      rc = -1 ∧ Crowd ((k, v) :: kvs) ∧ ∃ c, Inv t' ((k, v) :: kvs) (some c)) := by
  have hi0 : rehash k % 2 ^ t.level < 2 ^ t.level := Nat.mod_lt _ (Nat.two_pow_pos _)
  cases hb : t.dir (rehash k % 2 ^ t.level) with
  | none =>
    refine ⟨_, 0, by simp only [add, hb]; rfl, .inl ⟨rfl, ?_⟩⟩
    have old : ∀ i c, i < 2 ^ t.level → t.dir i = some c → c ≠ t.next := fun i c hi hc => by have := h.made i c hi hc; omega
    have cs : ∀ i c, i < 2 ^ t.level → (if i = rehash k % 2 ^ t.level then some t.next else t.dir i) = some c →
        (i = rehash k % 2 ^ t.level ∧ c = t.next) ∨ (i ≠ rehash k % 2 ^ t.level ∧ t.dir i = some c ∧ c ≠ t.next) := by
      intro i c hi hc
      split at hc
      · next e => cases hc; exact .inl ⟨e, rfl⟩
      · next e => exact .inr ⟨e, hc, old i c hi hc⟩
    refine ⟨h.pos, h.top, ?_, ?_, ?_, ?_, ?_, ?_, ?_⟩
    · intro i c hi hc
      rcases cs i c hi hc with ⟨-, rfl⟩ | ⟨-, h2, -⟩
      · simp
      · have := h.made i c hi h2; simp only; omega
    · intro i c hi hc
      simp only at hi ⊢
      rcases cs i c hi hc with ⟨-, rfl⟩ | ⟨-, h2, h3⟩
      · simp
      · rw [if_neg h3]; exact h.small i c hi h2
    · intro i j c hi hj hc
      simp only at hi hj ⊢
      rcases cs i c hi hc with ⟨h1, rfl⟩ | ⟨h1, h2, h3⟩
      · rw [if_pos (rfl : t.next = t.next)]
        simp only
        rw [Nat.mod_eq_of_lt hi, Nat.mod_eq_of_lt hj, h1]
        constructor
        · intro hc'
          rcases cs j _ hj hc' with ⟨e, -⟩ | ⟨-, -, e⟩
          · exact e
          · exact absurd rfl e
        · intro e; rw [if_pos e]
      · rw [if_neg h3, ← h.share i j c hi hj h2]
        constructor
        · intro hc'
          rcases cs j _ hj hc' with ⟨-, e⟩ | ⟨-, e, -⟩
          · exact absurd e h3
          · exact e
        · intro e
          rw [if_neg]
          · exact e
          · intro ej; rw [ej, hb] at e; cases e
    · intro i c hi hc kv hkv
      simp only at hi hkv ⊢
      rcases cs i c hi hc with ⟨h1, rfl⟩ | ⟨h1, h2, h3⟩
      · rw [if_pos rfl] at hkv ⊢
        rw [List.mem_singleton] at hkv
        subst hkv
        simp only
        rw [h1, Nat.mod_mod]
      · rw [if_neg h3] at hkv ⊢; exact h.home i c hi h2 kv hkv
    · intro kv
      have hj : rehash kv.1 % 2 ^ t.level < 2 ^ t.level := Nat.mod_lt _ (Nat.two_pow_pos _)
      rw [List.mem_cons, h.content kv]
      simp only
      constructor
      · rintro (rfl | ⟨c, hc, hkv⟩)
        · exact ⟨t.next, by simp, by simp⟩
        · refine ⟨c, ?_, by rw [if_neg (old _ _ hj hc)]; exact hkv⟩
          rw [if_neg]
          · exact hc
          · intro e; rw [e, hb] at hc; cases hc
      · rintro ⟨c, hc, hkv⟩
        rcases cs _ c hj hc with ⟨h1, rfl⟩ | ⟨h1, h2, h3⟩
        · rw [if_pos rfl, List.mem_singleton] at hkv; exact .inl hkv
        · rw [if_neg h3] at hkv; exact .inr ⟨c, h2, hkv⟩
    · intro i c hi hc
      simp only at hi ⊢
      rcases cs i c hi hc with ⟨h1, rfl⟩ | ⟨h1, h2, h3⟩
      · rw [if_pos rfl]; simp [cap]
      · rw [if_neg h3]; exact h.fill i c hi h2
    · intro hn i c hi hc
      simp only at hi ⊢
      rw [List.map_cons, List.nodup_cons] at hn
      rcases cs i c hi hc with ⟨h1, rfl⟩ | ⟨h1, h2, h3⟩
      · rw [if_pos rfl]; simp
      · rw [if_neg h3]; exact h.apart hn.2 i c hi h2
  | some b =>
    have hf := (h.fill _ b hi0 hb).2 (by simp)
    refine ⟨_, _, by simp only [add, hb]; rw [if_neg (by omega)], ?_⟩
    exact settle_ok maxLevel (put_inv h hb) hi0 hb (by omega)

/-- a search gives a pair that is there, and gives something if there is one -/
theorem get_ok {t : Tbl} {kvs : List (Nat × Nat)} {x : Option Nat} (h : Inv t kvs x) (k : Nat) :
    (∀ v, get t k = some v → (k, v) ∈ kvs) ∧ (∀ v, (k, v) ∈ kvs → (get t k).isSome) := by
  constructor
  · intro v hg
    unfold get at hg
    cases hb : t.dir (rehash k % 2 ^ t.level) with
    | none => rw [hb] at hg; cases hg
    | some b =>
      rw [hb] at hg
      simp only [Option.map_eq_some_iff] at hg
      obtain ⟨kv, h1, rfl⟩ := hg
      have he : kv.1 = k := by simpa using List.find?_some h1
      subst he
      exact (h.content kv).2 ⟨b, hb, List.mem_of_find?_eq_some h1⟩
  · intro v hv
    obtain ⟨b, hb, hkv⟩ := (h.content (k, v)).1 hv
    simp only [get, hb, Option.isSome_map, List.find?_isSome]
    exact ⟨_, hkv, by simp⟩

end Gkc.Eh
