import Verif.KeySizes
import Mathlib.Data.ZMod.Basic
import Mathlib.Algebra.Field.ZMod
/-
The set of keys is one: the sizes are primes, so the places that are tried are all places.
-/
namespace Gkc.Jq
attribute [local irreducible] rehash


/-- a size is one of them and, up to the last one, there is room -/
theorem dhashSize_ok {n : Nat} (h : n ≤ 201326611) :
    (dhashSize n).Prime ∧ n ≤ dhashSize n ∧ dhashSize n ≤ 201326611 := by
  have hmem : dhashSize n ∈ primes.take pCount ∧ n ≤ dhashSize n := by
    unfold dhashSize
    rw [if_neg (by omega)]
    simp only
    cases hf : (primes.take (pCount - 1)).findIdx? (· > 2 * n) with
    | none =>
      have h19 : primes[pCount - 1]?.getD 0 = 201326611 := by decide
      rw [Option.getD_none, h19]
      exact ⟨by decide, h⟩
    | some i =>
      obtain ⟨hi, hgt, -⟩ := List.findIdx?_eq_some_iff_getElem.1 hf
      have hi' : i < primes.length := by
        rw [List.length_take] at hi; omega
      have he : (primes.take (pCount - 1))[i] = primes[i] := List.getElem_take
      have hm : primes[i] ∈ primes.take (pCount - 1) := he ▸ List.getElem_mem hi
      rw [Option.getD_some, List.getElem?_eq_getElem hi', Option.getD_some]
      refine ⟨?_, ?_⟩
      · exact (List.take_sublist_take_left (by decide)).subset hm
      · rw [he] at hgt
        simp only [decide_eq_true_eq] at hgt
        omega
  refine ⟨primes_prime _ hmem.1, hmem.2, ?_⟩
  have : ∀ p ∈ primes.take pCount, p ≤ 201326611 := by decide
  exact this _ hmem.1

/-- every place is tried -/
theorem probe_all {p h1 h2 j : Nat} (hp : p.Prime) (hs : p ≤ 201326611) (h1p : h1 < p) (h20 : 0 < h2) (h2p : h2 < p) (hj : j < p) :
    ∃ i, i < p ∧ probe h1 h2 p i = j := by
  have := Fact.mk hp
  have hne : (h2 : ZMod p) ≠ 0 := by
    intro h
    rw [ZMod.natCast_eq_zero_iff] at h
    exact absurd (Nat.le_of_dvd h20 h) (by omega)
  refine ⟨(((j : ZMod p) - h1) / h2).val, ZMod.val_lt _, ?_⟩
  set i := (((j : ZMod p) - h1) / h2).val with hi
  have hip : i < p := ZMod.val_lt _
  have hlt : h1 + i * h2 < 2 ^ 64 := by
    have : i * h2 ≤ 201326611 * 201326611 := Nat.mul_le_mul (by omega) (by omega)
    omega
  unfold probe
  rw [Nat.mod_eq_of_lt hlt]
  have : ((h1 + i * h2 : Nat) : ZMod p) = (j : ZMod p) := by
    push_cast
    rw [hi, ZMod.natCast_zmod_val, div_mul_cancel₀ _ hne]
    exact add_sub_cancel _ _
  rw [ZMod.natCast_eq_natCast_iff'] at this
  rw [this, Nat.mod_eq_of_lt hj]

/-- the i-th place for a key -/
def place (t : Keys) (key i : Nat) : Nat :=
  probe (rehash key % t.size) (1 + rehash key % (t.size - 1)) t.size i

/-- the number of places is such -/
def Sized (t : Keys) : Prop := t.size.Prime ∧ t.size ≤ 201326611

theorem probe_zero {p h1 : Nat} (h2 : Nat) (hs : p ≤ 201326611) (hp : h1 < p) : probe h1 h2 p 0 = h1 := by
  have hlt : h1 < 2 ^ 64 := by omega
  unfold probe
  rw [Nat.zero_mul, Nat.add_zero, Nat.mod_eq_of_lt hlt, Nat.mod_eq_of_lt hp]

theorem place_zero {t : Keys} (hs : Sized t) (key : Nat) : place t key 0 = rehash key % t.size :=
  probe_zero _ hs.2 (Nat.mod_lt _ hs.1.pos)

theorem place_all {t : Keys} (hs : Sized t) (key : Nat) {j : Nat} (hj : j < t.size) : ∃ i, i < t.size ∧ place t key i = j := by
  have h2 := hs.1.two_le
  have hm : rehash key % (t.size - 1) < t.size - 1 := Nat.mod_lt _ (by omega)
  exact probe_all hs.1 hs.2 (Nat.mod_lt _ (by omega)) (by omega) (by omega) hj

theorem place_lt {t : Keys} (hs : Sized t) (key i : Nat) : place t key i < t.size := Nat.mod_lt _ hs.1.pos

theorem scan_ok (t : Keys) (key : Nat) : ∀ (n i b : Nat),
    (∃ m, i ≤ m ∧ m < i + n ∧ t.stops key (place t key m) = true ∧ (∀ l, i ≤ l → l < m → t.stops key (place t key l) = false) ∧
      scan t key (rehash key % t.size) (1 + rehash key % (t.size - 1)) n i b = place t key m) ∨
    ((∀ l, i ≤ l → l < i + n → t.stops key (place t key l) = false) ∧
      (n = 0 ∧ scan t key (rehash key % t.size) (1 + rehash key % (t.size - 1)) n i b = b ∨
       ∃ m, i ≤ m ∧ m < i + n ∧ scan t key (rehash key % t.size) (1 + rehash key % (t.size - 1)) n i b = place t key m))
  | 0, i, b => .inr ⟨fun l h1 h2 => by omega, .inl ⟨rfl, rfl⟩⟩
  | n + 1, i, b => by
    by_cases h : t.stops key (place t key i) = true
    · exact .inl ⟨i, Nat.le_refl _, by omega, h, fun l h1 h2 => by omega, by
        simp only [scan]; rw [if_pos (show t.stops key (probe _ _ _ i) = true from h)]; rfl⟩
    · have he : scan t key (rehash key % t.size) (1 + rehash key % (t.size - 1)) (n + 1) i b =
          scan t key (rehash key % t.size) (1 + rehash key % (t.size - 1)) n (i + 1) (place t key i) := by
        simp only [scan]; rw [if_neg (show ¬ t.stops key (probe _ _ _ i) = true from h)]; rfl
      have hf : t.stops key (place t key i) = false := by simpa using h
      rw [he]
      rcases scan_ok t key n (i + 1) (place t key i) with ⟨m, h1, h2, h3, h4, h5⟩ | ⟨h1, h2⟩
      · refine .inl ⟨m, by omega, by omega, h3, fun l l1 l2 => ?_, h5⟩
        by_cases hl : l = i
        · rw [hl]; exact hf
        · exact h4 l (by omega) l2
      · refine .inr ⟨fun l l1 l2 => ?_, .inr ?_⟩
        · by_cases hl : l = i
          · rw [hl]; exact hf
          · exact h1 l (by omega) (by omega)
        · rcases h2 with ⟨-, h2⟩ | ⟨m, m1, m2, m3⟩
          · exact ⟨i, Nat.le_refl _, by omega, h2⟩
          · exact ⟨m, by omega, by omega, m3⟩

/-- the first place at which the key is or which is free; if there is none, no place is free or has the key -/
theorem lookup_ok {t : Keys} (hs : Sized t) (key : Nat) :
    (∃ m, m < t.size ∧ t.stops key (place t key m) = true ∧ (∀ l, l < m → t.stops key (place t key l) = false) ∧
      lookup t key = place t key m) ∨
    ((∀ j, j < t.size → t.stops key j = false) ∧ lookup t key < t.size) := by
  have hz := place_zero hs key
  have h2 := hs.1.two_le
  by_cases h : t.stops key (place t key 0) = true
  · refine .inl ⟨0, by omega, h, fun l hl => by omega, ?_⟩
    rw [hz] at h
    simp only [lookup]
    rw [if_pos h, hz]
  · have hf : t.stops key (place t key 0) = false := by simpa using h
    have he : lookup t key = scan t key (rehash key % t.size) (1 + rehash key % (t.size - 1)) (t.size - 1) 1 (rehash key % t.size) := by
      rw [hz] at h
      simp only [lookup]
      rw [if_neg h]
    rw [he]
    rcases scan_ok t key (t.size - 1) 1 (rehash key % t.size) with ⟨m, h1, h2', h3, h4, h5⟩ | ⟨h1, h2'⟩
    · refine .inl ⟨m, by omega, h3, fun l hl => ?_, h5⟩
      by_cases hl0 : l = 0
      · rw [hl0]; exact hf
      · exact h4 l (by omega) hl
    · refine .inr ⟨fun j hj => ?_, ?_⟩
      · obtain ⟨i, hi, rfl⟩ := place_all hs key hj
        by_cases hi0 : i = 0
        · rw [hi0]; exact hf
        · exact h1 i (by omega) (by omega)
      · rcases h2' with ⟨h0, -⟩ | ⟨m, -, -, hm⟩
        · omega
        · rw [hm]; exact place_lt hs key m

/-- the table holds exactly these keys, each where it is found -/
structure Holds (t : Keys) (ks : List Nat) : Prop where
  sized : Sized t
  only : ∀ j, j < t.size → t.slot j ≠ 0 → t.slot j ∈ ks
  found : ∀ k ∈ ks, k ≠ 0 ∧ ∃ m, m < t.size ∧ t.slot (place t k m) = k ∧ ∀ l, l < m → t.slot (place t k l) ≠ 0
  few : ((Finset.range t.size).filter fun j => t.slot j ≠ 0).card ≤ ks.length

theorem holds_init {n : Nat} (h : n ≤ 201326611) : ∃ t, initKeys n = some t ∧ Holds t [] ∧ n ≤ t.size := by
  obtain ⟨h1, h2, h3⟩ := dhashSize_ok h
  refine ⟨⟨dhashSize n, fun _ => 0⟩, by simp [initKeys, h1.ne_zero], ⟨⟨h1, h3⟩, fun j _ h => absurd rfl h, fun k hk => (by cases hk), by simp⟩, h2⟩

theorem hasKey_iff {t : Keys} {ks : List Nat} (h : Holds t ks) {k : Nat} (hk : k ≠ 0) : hasKey t k = true ↔ k ∈ ks := by
  simp only [hasKey, beq_iff_eq]
  constructor
  · intro he
    have hl : lookup t k < t.size := by
      rcases lookup_ok h.sized k with ⟨m, -, -, -, e⟩ | ⟨-, e⟩
      · rw [e]; exact place_lt h.sized k m
      · exact e
    have := h.only _ hl (by rw [he]; exact hk)
    rwa [he] at this
  · intro hm
    obtain ⟨-, m, h1, h2, h3⟩ := h.found k hm
    rcases lookup_ok h.sized k with ⟨m', -, s1, s2, e⟩ | ⟨e, -⟩
    · rw [e]
      simp only [Keys.stops, Bool.or_eq_true, beq_iff_eq] at s1
      rcases s1 with s1 | s1
      · exact s1
      · exfalso
        rcases Nat.lt_or_ge m' m with hlt | hge
        · exact h3 m' hlt s1
        · rcases Nat.lt_or_eq_of_le hge with hlt | heq
          · have := s2 m hlt
            simp [Keys.stops, h2] at this
          · rw [← heq, h2] at s1; exact hk s1
    · have := e _ (place_lt h.sized k m)
      simp [Keys.stops, h2] at this

theorem addKey_ok {t : Keys} {ks : List Nat} (h : Holds t ks) {k : Nat} (hk : k ≠ 0) (hroom : ks.length < t.size) :
    (addKey t k).2 = 0 ∧ Holds (addKey t k).1 (k :: ks) ∧ (addKey t k).1.size = t.size := by
  rcases lookup_ok h.sized k with ⟨m, hm, s1, s2, e⟩ | ⟨e, -⟩
  · by_cases h0 : t.slot (lookup t k) = 0
    · have ha : addKey t k = ({ t with slot := fun j => if j = lookup t k then k else t.slot j }, 0) := by simp [addKey, h0]
      rw [ha]
      have hl : lookup t k < t.size := by rw [e]; exact place_lt h.sized k m
      have hp : ∀ k' i, place { t with slot := fun j => if j = lookup t k then k else t.slot j } k' i = place t k' i := fun _ _ => rfl
      refine ⟨rfl, ⟨h.sized, ?_, ?_, ?_⟩, rfl⟩
      · intro j hj hne
        by_cases hj' : j = lookup t k
        · simp [hj']
        · simp only [hj', if_false] at hne ⊢
          exact List.mem_cons_of_mem _ (h.only j hj hne)
      · intro k' hk'
        simp only [hp]
        have kept : ∀ j, t.slot j ≠ 0 → (if j = lookup t k then k else t.slot j) ≠ 0 := by
          intro j hj; split
          · exact hk
          · exact hj
        rcases List.mem_cons.1 hk' with rfl | hk'
        · refine ⟨hk, m, hm, by simp [e], fun l hl' => kept _ ?_⟩
          have := s2 l hl'
          simp only [Keys.stops, Bool.or_eq_false_iff, beq_eq_false_iff_ne] at this
          exact this.2
        · obtain ⟨g0, m', g1, g2, g3⟩ := h.found k' hk'
          refine ⟨g0, m', g1, ?_, fun l hl' => kept _ (g3 l hl')⟩
          have : place t k' m' ≠ lookup t k := by intro e'; rw [e', h0] at g2; exact g0 g2.symm
          simp [this, g2]
      · have hsub : ((Finset.range t.size).filter fun j => (if j = lookup t k then k else t.slot j) ≠ 0) ⊆
            insert (lookup t k) ((Finset.range t.size).filter fun j => t.slot j ≠ 0) := by
          intro j hj
          simp only [Finset.mem_filter, Finset.mem_insert] at hj ⊢
          by_cases hj' : j = lookup t k
          · exact .inl hj'
          · simp only [hj', if_false] at hj; exact .inr hj
        calc _ ≤ _ := Finset.card_le_card hsub
          _ ≤ _ := Finset.card_insert_le _ _
          _ ≤ _ := by simpa using h.few
    · have hkk : t.slot (lookup t k) = k := by
        rw [e] at h0 ⊢
        simp only [Keys.stops, Bool.or_eq_true, beq_iff_eq] at s1
        exact s1.resolve_right h0
      have ha : addKey t k = (t, 0) := by simp [addKey, hkk, hk]
      rw [ha]
      have hin : k ∈ ks := (hasKey_iff h hk).1 (by simp [hasKey, hkk])
      exact ⟨rfl, ⟨h.sized, fun j hj hne => List.mem_cons_of_mem _ (h.only j hj hne), fun k' hk' => (by
        rcases List.mem_cons.1 hk' with rfl | hk'
        · exact h.found _ hin
        · exact h.found _ hk'), Nat.le_succ_of_le h.few⟩, rfl⟩
  · exfalso
    have : ((Finset.range t.size).filter fun j => t.slot j ≠ 0) = Finset.range t.size := by
      apply Finset.filter_true_of_mem
      intro j hj
      have := e j (Finset.mem_range.1 hj)
      simp only [Keys.stops, Bool.or_eq_false_iff, beq_eq_false_iff_ne] at this
      exact this.2
    have hf := h.few
    rw [this, Finset.card_range] at hf
    omega

theorem addKeys_ok : ∀ (l : List Nat) {t : Keys} {ks : List Nat}, Holds t ks → (∀ k ∈ l, k ≠ 0) → ks.length + l.length ≤ t.size →
    ∃ t' ks', addKeys l t = some t' ∧ Holds t' ks' ∧ ∀ k, k ∈ ks' ↔ k ∈ l ∨ k ∈ ks
  | [], t, ks, h, _, _ => ⟨t, ks, rfl, h, by simp⟩
  | x :: l, t, ks, h, hn, hr => by
    simp only [List.length_cons] at hr
    obtain ⟨h1, h2, h3⟩ := addKey_ok h (hn x (List.mem_cons_self ..)) (by omega)
    obtain ⟨t', ks', g1, g2, g3⟩ := addKeys_ok l h2 (fun k hk => hn k (List.mem_cons_of_mem _ hk)) (by rw [h3]; simp; omega)
    refine ⟨t', ks', by simp [addKeys, h1, g1], g2, fun k => ?_⟩
    rw [g3]; simp only [List.mem_cons]; tauto

end Gkc.Jq
