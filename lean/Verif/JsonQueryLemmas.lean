import Verif.KeySetLemmas
/-
Result sets, and the documents of records.
-/
namespace Gkc.Jq
open Gkc.Hx (Val Col)

theorem uniqueNested_ok : ∀ (l u : List Nat), u.Nodup → (uniqueNested l u).Nodup ∧ ∀ x, x ∈ uniqueNested l u ↔ x ∈ l ∨ x ∈ u
  | [], u, hu => ⟨hu, by simp [uniqueNested]⟩
  | y :: l, u, hu => by
    by_cases hy : y ∈ u
    · have : u.any (y == ·) = true := by simpa using hy
      obtain ⟨h1, h2⟩ := uniqueNested_ok l u hu
      simp only [uniqueNested, this, if_true]
      refine ⟨h1, fun x => ?_⟩
      rw [h2]; simp only [List.mem_cons]
      constructor
      · tauto
      · rintro ((rfl | h) | h) <;> tauto
    · have : u.any (y == ·) = false := by
        rw [Bool.eq_false_iff]; intro h; exact hy (by simpa using h)
      obtain ⟨h1, h2⟩ := uniqueNested_ok l (u ++ [y]) (List.nodup_append.2 ⟨hu, by simp, by
        intro a ha b hb; simp at hb; subst hb; exact fun e => hy (e ▸ ha)⟩)
      simp only [uniqueNested, this]
      refine ⟨h1, fun x => ?_⟩
      rw [if_neg (by simp), h2]; simp only [List.mem_cons, List.mem_append, List.not_mem_nil, or_false]; tauto

theorem uniqueHash_ok : ∀ (l : List Nat) {t : Keys} {ks : List Nat} (u : List Nat), Holds t ks → (∀ x, x ∈ ks ↔ x ∈ u) → u.Nodup →
    (∀ k ∈ l, k ≠ 0) → ks.length + l.length ≤ t.size →
    ∃ v, uniqueHash l t u = some v ∧ v.Nodup ∧ ∀ x, x ∈ v ↔ x ∈ l ∨ x ∈ u
  | [], t, ks, u, h, hk, hu, _, _ => ⟨u, rfl, hu, by simp⟩
  | y :: l, t, ks, u, h, hk, hu, hn, hr => by
    simp only [List.length_cons] at hr
    have hy0 := hn y (List.mem_cons_self ..)
    have hn' : ∀ k ∈ l, k ≠ 0 := fun k hk => hn k (List.mem_cons_of_mem _ hk)
    by_cases hy : hasKey t y = true
    · have hyu : y ∈ u := (hk y).1 ((hasKey_iff h hy0).1 hy)
      obtain ⟨v, h1, h2, h3⟩ := uniqueHash_ok l u h hk hu hn' (by omega)
      refine ⟨v, by simp [uniqueHash, hy, h1], h2, fun x => ?_⟩
      rw [h3]; simp only [List.mem_cons]
      constructor
      · tauto
      · rintro ((rfl | h) | h) <;> tauto
    · have hyu : y ∉ u := fun hm => hy ((hasKey_iff h hy0).2 ((hk y).2 hm))
      obtain ⟨a1, a2, a3⟩ := addKey_ok h hy0 (by omega)
      obtain ⟨v, h1, h2, h3⟩ := uniqueHash_ok l (u ++ [y]) a2 (by intro x; simp only [List.mem_cons, List.mem_append, hk, List.not_mem_nil, or_false]; tauto)
        (List.nodup_append.2 ⟨hu, by simp, by intro a ha b hb; simp at hb; subst hb; exact fun e => hyu (e ▸ ha)⟩) hn'
        (by rw [a3]; simp; omega)
      refine ⟨v, by simp [uniqueHash, hy, a1, h1], h2, fun x => ?_⟩
      rw [h3]; simp only [List.mem_cons, List.mem_append, List.not_mem_nil, or_false]; tauto

theorem unique_ok {l : List Nat} (hn : ∀ k ∈ l, k ≠ 0) (hl : l.length ≤ 201326611) :
    ∃ u, unique l = some u ∧ u.Nodup ∧ (∀ x, x ∈ u ↔ x ∈ l) ∧ u.length ≤ l.length := by
  have len : ∀ {u : List Nat}, u.Nodup → (∀ x, x ∈ u ↔ x ∈ l) → u.length ≤ l.length := fun h1 h2 =>
    (List.subperm_of_subset h1 fun x hx => (h2 x).1 hx).length_le
  by_cases h : l.length < 20
  · obtain ⟨h1, h2⟩ := uniqueNested_ok l [] List.nodup_nil
    have h2' : ∀ x, x ∈ uniqueNested l [] ↔ x ∈ l := fun x => by simp [h2]
    exact ⟨_, by simp [unique, h], h1, h2', len h1 h2'⟩
  · obtain ⟨t, i1, i2, i3⟩ := holds_init hl
    obtain ⟨v, h1, h2, h3⟩ := uniqueHash_ok l [] i2 (by simp) List.nodup_nil hn (by simpa using i3)
    have h3' : ∀ x, x ∈ v ↔ x ∈ l := fun x => by simp [h3]
    exact ⟨v, by simp [unique, h, i1, h1], h2, h3', len h2 h3'⟩

theorem intersect_ok {a b : List Nat} (ha : ∀ k ∈ a, k ≠ 0) (hb : ∀ k ∈ b, k ≠ 0) (hl : min a.length b.length ≤ 201326611) :
    ∃ l, intersect a b = some l ∧ (∀ x, x ∈ l ↔ x ∈ a ∧ x ∈ b) ∧ (a.Nodup → b.Nodup → l.Nodup) ∧ l.length ≤ max a.length b.length := by
  by_cases h : a.length * b.length < 200
  · refine ⟨a.filter fun x => b.any (x == ·), by simp only [intersect, h, if_true], fun x => by simp, fun h1 _ => h1.filter _, ?_⟩
    exact Nat.le_trans (List.length_filter_le _ _) (Nat.le_max_left _ _)
  · have key : ∀ p q : List Nat, (∀ k ∈ p, k ≠ 0) → (∀ k ∈ q, k ≠ 0) → p.length ≤ 201326611 →
        ∃ t t', initKeys p.length = some t ∧ addKeys p t = some t' ∧ ∀ x, x ∈ q.filter (hasKey t') ↔ x ∈ p ∧ x ∈ q := by
      intro p q hp hq hpl
      obtain ⟨t, i1, i2, i3⟩ := holds_init hpl
      obtain ⟨t', ks, g1, g2, g3⟩ := addKeys_ok p i2 hp (by simpa using i3)
      refine ⟨t, t', i1, g1, fun x => ?_⟩
      rw [List.mem_filter]
      constructor
      · rintro ⟨h1, h2⟩
        have := (g3 x).1 ((hasKey_iff g2 (hq x h1)).1 h2)
        exact ⟨by simpa using this, h1⟩
      · rintro ⟨h1, h2⟩
        exact ⟨h2, (hasKey_iff g2 (hq x h2)).2 ((g3 x).2 (.inl h1))⟩
    simp only [intersect, h, if_false]
    by_cases hc : a.length > b.length
    · obtain ⟨t, t', h1, h2, h3⟩ := key b a hb ha (by omega)
      refine ⟨a.filter (hasKey t'), by simp [hc, h1, h2], fun x => by rw [h3]; tauto, fun h _ => h.filter _, ?_⟩
      exact Nat.le_trans (List.length_filter_le _ _) (Nat.le_max_left _ _)
    · obtain ⟨t, t', h1, h2, h3⟩ := key a b ha hb (by omega)
      refine ⟨b.filter (hasKey t'), by simp [hc, h1, h2], h3, fun _ h => h.filter _, ?_⟩
      exact Nat.le_trans (List.length_filter_le _ _) (Nat.le_max_right _ _)

/-- `n` steps from a record to those its columns refer to -/
def At (w : World) : Nat → Nat → Nat → Prop
  | 0, d, r => d = r
  | n + 1, d, r => ∃ k ∈ w.kids d, At w n k r

/-- some steps -/
def Within (w : World) (d r : Nat) : Prop := ∃ n, At w n d r

theorem at_snoc {w : World} : ∀ {n d p r : Nat}, At w n d p → r ∈ w.kids p → At w (n + 1) d r
  | 0, d, p, r, h, hr => by simp only [At] at h; subst h; exact ⟨r, hr, rfl⟩
  | n + 1, d, p, r, ⟨k, hk, h⟩, hr => ⟨k, hk, at_snoc h hr⟩

theorem at_last {w : World} : ∀ {n d r : Nat}, At w (n + 1) d r → ∃ p, At w n d p ∧ r ∈ w.kids p
  | 0, d, r, ⟨k, hk, h⟩ => by simp only [At] at h; subst h; exact ⟨d, rfl, hk⟩
  | n + 1, d, r, ⟨k, hk, h⟩ => by
    obtain ⟨p, h1, h2⟩ := at_last h
    exact ⟨p, ⟨k, hk, h1⟩, h2⟩

theorem at_prefix {w : World} : ∀ {n m d r : Nat}, At w (n + m) d r → ∃ x, At w n d x
  | 0, m, d, r, _ => ⟨d, rfl⟩
  | n + 1, m, d, r, h => by
    rw [Nat.add_right_comm] at h
    obtain ⟨k, hk, h⟩ := h
    obtain ⟨x, hx⟩ := at_prefix h
    exact ⟨x, k, hk, hx⟩

theorem firstOf_some {f : Nat → Option Nat} {l : List Nat} {d : Nat} (h : firstOf f l = some d) : ∃ p ∈ l, f p = some d := by
  induction l with
  | nil => cases h
  | cons p l ih =>
    simp only [firstOf] at h
    split at h
    · rename_i e he
      cases h
      exact ⟨p, List.mem_cons_self .., he⟩
    · obtain ⟨q, hq, h⟩ := ih h
      exact ⟨q, List.mem_cons_of_mem _ hq, h⟩

theorem firstOf_isSome {f : Nat → Option Nat} {l : List Nat} {p : Nat} (hp : p ∈ l) (h : (f p).isSome) : (firstOf f l).isSome := by
  induction l with
  | nil => cases hp
  | cons q l ih =>
    simp only [firstOf]
    split
    · rfl
    · rename_i hq
      rcases List.mem_cons.1 hp with rfl | hp
      · rw [hq] at h; cases h
      · exact ih hp

theorem findDoc_right {w : World} (hl : ∀ p r, p ∈ w.parents r → r ∈ w.kids p) : ∀ {n r d : Nat}, findDoc w n r = some d →
    w.isDoc d = true ∧ Within w d r
  | 0, r, d, h => by
    simp only [findDoc] at h
    split at h
    · rename_i hd; cases h; exact ⟨hd, 0, rfl⟩
    · cases h
  | n + 1, r, d, h => by
    simp only [findDoc] at h
    split at h
    · rename_i hd; cases h; exact ⟨hd, 0, rfl⟩
    · obtain ⟨p, hp, h⟩ := firstOf_some h
      obtain ⟨h1, m, h2⟩ := findDoc_right hl h
      exact ⟨h1, m + 1, at_snoc h2 (hl p r hp)⟩

theorem findDoc_there {w : World} (hl : ∀ p r, r ∈ w.kids p → p ∈ w.parents r) : ∀ {n m r d : Nat}, w.isDoc d = true → At w m d r → m ≤ n →
    (findDoc w n r).isSome
  | n, 0, r, d, hd, h, _ => by
    simp only [At] at h; subst h
    cases n <;> simp [findDoc, hd]
  | n + 1, m + 1, r, d, hd, h, hm => by
    simp only [findDoc]
    split
    · rfl
    · obtain ⟨p, h1, h2⟩ := at_last h
      exact firstOf_isSome (hl p r h2) (findDoc_there hl hd h1 (by omega))

/-- a loop in which each record either adds something or does not -/
theorem over_ok {f : Nat → List Nat → Option (Bool × List Nat)} {P : Nat → Bool} {g : Nat → Nat} : ∀ {rs s : List Nat},
    (∀ r ∈ rs, ∀ s, f r s = some (P r, if P r then s ++ [g r] else s)) → over f rs s = some (s ++ (rs.filter P).map g)
  | [], s, _ => by simp [over]
  | r :: rs, s, h => by
    have h1 := h r (List.mem_cons_self ..) s
    have ih := over_ok (f := f) (P := P) (g := g) (rs := rs) (s := if P r then s ++ [g r] else s) (fun r hr => h r (List.mem_cons_of_mem _ hr))
    simp only [over, h1, ih]
    cases hp : P r <;> simp [hp]

end Gkc.Jq
