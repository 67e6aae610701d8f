import Verif.JsonQueryLemmas
import Verif.HashKeyLemmas
/-
C71: a query for JSON documents gives the documents in which each of the pairs occurs.
-/
namespace Gkc.Props.Jq
open Gkc.Jq
open Gkc.Hx (Val Col)

/-- a record has this key and this value, or an array in which the value is -/
def Matches (w : World) (a : Arg) (r : Nat) : Prop :=
  ∃ k c, w.kv r = some (k, c) ∧ w.same k a.key = true ∧
    (w.same c.word a.value = true ∨ ∃ off l v, c = .arr off l ∧ v ∈ l ∧ w.same v a.value = true)

/-- the pair occurs in the document -/
def Has (w : World) (d : Nat) (a : Arg) : Prop := ∃ r, Within w d r ∧ Matches w a r

/-- the largest size of a set of keys that is used -/
def most : Nat := 201326611

/-- Documents are separate and not deep, and what is asked for occurs only in documents. -/
structure Tidy (w : World) (args : List Arg) : Prop where
  linked : ∀ p r, p ∈ w.parents r ↔ r ∈ w.kids p
  one : ∀ r d d', w.isDoc d = true → w.isDoc d' = true → Within w d r → Within w d' r → d = d'
  flat : ∀ d r, w.isDoc d = true → ¬ At w 7 d r
  inside : ∀ a ∈ args, ∀ r ∈ w.rows, Matches w a r → ∃ d, w.isDoc d = true ∧ Within w d r
  listed : ∀ d r, w.isDoc d = true → Within w d r → r ∈ w.rows
  nonzero : ∀ d, w.isDoc d = true → d ≠ 0
  few : w.rows.length ≤ most

/-- The indexes are current (C55) and give what they should (C53, C70). -/
structure Current (w : World) (ix : Indexes) (args : List Arg) : Prop where
  hash : ∀ h, ix.hash = some h → ∀ a ∈ args, isRecord a.value = false →
    (h a.key a.value).length ≤ most ∧ ∀ r, r ∈ h a.key a.value ↔ r ∈ w.rows ∧ Matches w a r
  key : ∀ k, ix.key = some k → ∀ a ∈ args, (k a.key).length ≤ most ∧
    ∀ r, r ∈ k a.key ↔ r ∈ w.rows ∧ ∃ x c, w.kv r = some (x, c) ∧ w.same x a.key = true

/-- the document of a record that is in one -/
theorem doc_eq {w : World} {args : List Arg} (ht : Tidy w args) {d r : Nat} (hd : w.isDoc d = true) (hr : Within w d r) :
    findDoc w 6 r = some d := by
  obtain ⟨n, hn⟩ := hr
  have h6 : n ≤ 6 := by
    by_contra hc
    obtain ⟨x, hx⟩ := at_prefix (n := 7) (m := n - 7) (by rwa [show 7 + (n - 7) = n by omega])
    exact ht.flat d x hd hx
  have hs := findDoc_there (fun p r h => (ht.linked p r).2 h) hd hn h6
  obtain ⟨d', hd'⟩ := Option.isSome_iff_exists.1 hs
  obtain ⟨h1, h2⟩ := findDoc_right (fun p r h => (ht.linked p r).1 h) hd'
  rw [hd', ht.one r d' d h1 hd h2 ⟨n, hn⟩]

/-- the document, or 0 -/
def docOf (w : World) (r : Nat) : Nat := (findDoc w 6 r).getD 0

theorem addDoc_eq {w : World} {args : List Arg} (ht : Tidy w args) {a : Arg} (ha : a ∈ args) {r : Nat} (hr : r ∈ w.rows) (hm : Matches w a r)
    (s : List Nat) : addDoc w r s = some (true, s ++ [docOf w r]) := by
  obtain ⟨d, hd, hw⟩ := ht.inside a ha r hr hm
  have := doc_eq ht hd hw
  simp [addDoc, docOf, this]

theorem hitValue_iff {w : World} {c : Col} {v : Val} :
    hitValue w c v = true ↔ w.same c.word v = true ∨ ∃ off l x, c = .arr off l ∧ x ∈ l ∧ w.same x v = true := by
  cases c with
  | val x => simp [hitValue]
  | arr off l => simp [hitValue]

/-- the test of a record as a function -/
def hits (w : World) (a : Arg) (r : Nat) : Bool := match w.kv r with
  | none => false
  | some (k, c) => w.same k a.key && hitValue w c a.value

theorem hits_iff {w : World} {a : Arg} {r : Nat} : hits w a r = true ↔ Matches w a r := by
  unfold hits Matches
  cases h : w.kv r with
  | none => simp
  | some x =>
    obtain ⟨k, c⟩ := x
    simp only [Bool.and_eq_true, hitValue_iff]
    constructor
    · rintro ⟨h1, h2⟩; exact ⟨k, c, rfl, h1, h2⟩
    · rintro ⟨k', c', he, h1, h2⟩
      cases he
      exact ⟨h1, h2⟩

theorem byKv_eq {w : World} {args : List Arg} (ht : Tidy w args) {a : Arg} (ha : a ∈ args) {r : Nat} (hr : r ∈ w.rows) (s : List Nat) :
    byKv w a r s = some (hits w a r, if hits w a r then s ++ [docOf w r] else s) := by
  by_cases hh : hits w a r = true
  · have hadd := addDoc_eq ht ha hr (hits_iff.1 hh) s
    rw [hh]
    unfold hits at hh
    unfold byKv
    cases h : w.kv r with
    | none => simp [h] at hh
    | some x =>
      obtain ⟨k, c⟩ := x
      rw [h] at hh
      simp only at hh ⊢
      rw [if_pos hh]; simpa using hadd
  · have hf : hits w a r = false := by simpa using hh
    rw [hf]
    unfold hits at hf
    unfold byKv
    cases h : w.kv r with
    | none => simp
    | some x =>
      obtain ⟨k, c⟩ := x
      rw [h] at hf
      simp only at hf ⊢
      rw [hf]; simp

theorem byKey_eq {w : World} {args : List Arg} (ht : Tidy w args) {a : Arg} (ha : a ∈ args) {r : Nat} (hr : r ∈ w.rows)
    (hk : ∃ x c, w.kv r = some (x, c) ∧ w.same x a.key = true) (s : List Nat) :
    byKey w a r s = some (hits w a r, if hits w a r then s ++ [docOf w r] else s) := by
  rw [← byKv_eq ht ha hr]
  obtain ⟨x, c, h1, h2⟩ := hk
  simp [byKey, byKv, h1, h2]

theorem within_kid {w : World} {r k x : Nat} (hk : k ∈ w.kids r) (hx : Within w k x) : Within w r x := by
  obtain ⟨n, hn⟩ := hx; exact ⟨n + 1, k, hk, hn⟩

open Classical in
theorem byDoc_eq {w : World} {args : List Arg} (ht : Tidy w args) {a : Arg} (ha : a ∈ args) {d : Nat} (hd : w.isDoc d = true) :
    ∀ (n r : Nat) (s : List Nat), (∀ x, ¬ At w n r x) → Within w d r →
      byDoc w a n r s = some (decide (Has w r a), if Has w r a then s ++ [d] else s)
  | 0, r, s, hn, _ => absurd rfl (hn r)
  | n + 1, r, s, hn, hw => by
    have hrow := ht.listed d r hd hw
    have hkv := byKv_eq ht ha hrow s
    by_cases hh : hits w a r = true
    · have hm : Has w r a := ⟨r, ⟨0, rfl⟩, hits_iff.1 hh⟩
      have hdoc : docOf w r = d := by simp [docOf, doc_eq ht hd hw]
      simp only [byDoc, hkv, hh, if_true, hdoc, hm, decide_true]
    · have hf : hits w a r = false := by simpa using hh
      have hkids : ∀ ks : List Nat, (∀ k ∈ ks, k ∈ w.kids r) → ∀ s,
          overKids (byDoc w a n) ks s = some (decide (∃ k ∈ ks, Has w k a), if ∃ k ∈ ks, Has w k a then s ++ [d] else s) := by
        intro ks
        induction ks with
        | nil => intro _ s; simp [overKids]
        | cons k ks ih =>
          intro hks s
          have hk := hks k (List.mem_cons_self ..)
          have h1 := byDoc_eq ht ha hd n k s (fun x hx => hn x ⟨k, hk, hx⟩) (by
            obtain ⟨m, hm⟩ := hw; exact ⟨m + 1, at_snoc hm hk⟩)
          by_cases hm : Has w k a
          · simp [overKids, h1, hm]
          · have h2 := ih (fun k hk => hks k (List.mem_cons_of_mem _ hk)) s
            simp only [overKids, h1, hm, decide_false, if_false, h2, List.mem_cons, exists_eq_or_imp, false_or]
      have hiff : Has w r a ↔ ∃ k ∈ w.kids r, Has w k a := by
        constructor
        · rintro ⟨x, ⟨m, hm⟩, hx⟩
          cases m with
          | zero =>
            simp only [At] at hm
            subst hm
            exact absurd (hits_iff.2 hx) hh
          | succ m =>
            obtain ⟨k, hk, hm⟩ := hm
            exact ⟨k, hk, x, ⟨m, hm⟩, hx⟩
        · rintro ⟨k, hk, x, hx, hm⟩
          exact ⟨x, within_kid hk hx, hm⟩
      have := hkids (w.kids r) (fun _ h => h) s
      simp only [byDoc, hkv, hf, this, hiff, Bool.false_eq_true, if_false]

/-- the set for an argument -/
def Good (w : World) (P : Nat → Prop) (l : List Nat) : Prop := l.length ≤ most ∧ ∀ d, d ∈ l ↔ w.isDoc d = true ∧ P d

theorem good_rows {w : World} {args : List Arg} (ht : Tidy w args) {a : Arg} (ha : a ∈ args) {rs : List Nat}
    (hrs : ∀ r, Matches w a r → r ∈ w.rows → r ∈ rs) (hin : ∀ r ∈ rs, r ∈ w.rows) (hl : rs.length ≤ most) :
    Good w (fun d => Has w d a) ((rs.filter (hits w a)).map (docOf w)) := by
  refine ⟨by rw [List.length_map]; exact Nat.le_trans (List.length_filter_le _ _) hl, fun d => ?_⟩
  simp only [List.mem_map, List.mem_filter, hits_iff]
  constructor
  · rintro ⟨r, ⟨h1, h2⟩, rfl⟩
    obtain ⟨d, hd, hw⟩ := ht.inside a ha r (hin r h1) h2
    have : docOf w r = d := by simp [docOf, doc_eq ht hd hw]
    rw [this]
    exact ⟨hd, r, hw, h2⟩
  · rintro ⟨hd, r, hw, hm⟩
    exact ⟨r, ⟨hrs r hm (ht.listed d r hd hw), hm⟩, by simp [docOf, doc_eq ht hd hw]⟩

theorem next_ok {w : World} {ix : Indexes} {args : List Arg} (ht : Tidy w args) (hc : Current w ix args) {a : Arg} (ha : a ∈ args)
    {cur : Option (List Nat)} {P : Nat → Prop} (hcur : ∀ c, cur = some c → Good w P c) :
    ∃ s m, nextSet w ix a cur = some (s, m) ∧
      (m = true ∧ Good w (fun d => Has w d a) s ∨ m = false ∧ cur ≠ none ∧ Good w (fun d => P d ∧ Has w d a) s) := by
  have full : (over (byKv w a) w.rows []).map (·, true) = some ((w.rows.filter (hits w a)).map (docOf w), true) := by
    rw [over_ok (P := hits w a) (g := docOf w) (fun r hr s => byKv_eq ht ha hr s)]; simp
  have key : ∀ k, ix.key = some k → ∃ s, (over (byKey w a) (k a.key) []).map (·, true) = some (s, true) ∧ Good w (fun d => Has w d a) s := by
    intro k hk
    obtain ⟨k1, k2⟩ := hc.key k hk a ha
    refine ⟨_, by
      rw [over_ok (P := hits w a) (g := docOf w) (fun r hr s => byKey_eq ht ha ((k2 r).1 hr).1 ((k2 r).1 hr).2 s)]; rfl, ?_⟩
    rw [List.nil_append]
    refine good_rows ht ha (fun r hm hr => (k2 r).2 ⟨hr, ?_⟩) (fun r hr => ((k2 r).1 hr).1) k1
    obtain ⟨x, c, h1, h2, -⟩ := hm
    exact ⟨x, c, h1, h2⟩
  have scanned : ∀ c, cur = some c → ∃ s, (over (byDoc w a 7) c []).map (·, false) = some (s, false) ∧
      Good w (fun d => P d ∧ Has w d a) s := by
    intro c hcc
    obtain ⟨g1, g2⟩ := hcur c hcc
    classical
    refine ⟨c.filter fun d => decide (Has w d a), ?_, ?_⟩
    · rw [over_ok (P := fun d => decide (Has w d a)) (g := id) (fun d hd s => by
        have hdd := ((g2 d).1 hd).1
        have := byDoc_eq ht ha hdd 7 d s (fun x => ht.flat d x hdd) ⟨0, rfl⟩
        simpa using this)]
      simp
    · refine ⟨Nat.le_trans (List.length_filter_le _ _) g1, fun d => ?_⟩
      rw [List.mem_filter, g2]; simp [and_assoc]
  have rest : ∃ s m, searched w ix a cur = some (s, m) ∧
      (m = true ∧ Good w (fun d => Has w d a) s ∨ m = false ∧ cur ≠ none ∧ Good w (fun d => P d ∧ Has w d a) s) := by
    unfold searched
    cases hk : ix.key with
    | some k => obtain ⟨s, h1, h2⟩ := key k hk; exact ⟨s, true, h1, .inl ⟨rfl, h2⟩⟩
    | none =>
      cases hcc : cur with
      | some c => obtain ⟨s, h1, h2⟩ := scanned c hcc; exact ⟨s, false, h1, .inr ⟨rfl, by simp, h2⟩⟩
      | none => exact ⟨_, true, full, .inl ⟨rfl, good_rows ht ha (fun r _ hr => hr) (fun r hr => hr) ht.few⟩⟩
  unfold nextSet
  cases hh : ix.hash with
  | none => simpa using rest
  | some h =>
    cases hr : isRecord a.value with
    | true => simpa using rest
    | false =>
      obtain ⟨h1, h2⟩ := hc.hash h hh a ha hr
      refine ⟨_, true, by
        simp only
        rw [over_ok (P := hits w a) (g := docOf w) (fun r hr s => by
          have hm := (h2 r).1 hr
          rw [addDoc_eq ht ha hm.1 hm.2, hits_iff.2 hm.2]; rfl)]; rfl, .inl ⟨rfl, ?_⟩⟩
      rw [List.nil_append]
      exact good_rows ht ha (fun r hm hr => (h2 r).2 ⟨hr, hm⟩) (fun r hr => ((h2 r).1 hr).1) h1

theorem round_ok {w : World} {ix : Indexes} {args : List Arg} (ht : Tidy w args) (hc : Current w ix args) {a : Arg} (ha : a ∈ args)
    {cur : Option (List Nat)} {P : Nat → Prop} (hcur : ∀ c, cur = some c → c.Nodup ∧ Good w P c) (hnone : cur = none → ∀ d, P d) :
    ∃ l, roundOf w ix a cur = some l ∧ l.Nodup ∧ Good w (fun d => P d ∧ Has w d a) l := by
  have nz : ∀ {Q : Nat → Prop} {s : List Nat}, Good w Q s → ∀ k ∈ s, k ≠ 0 := fun hg k hk => ht.nonzero k ((hg.2 k).1 hk).1
  obtain ⟨s, m, h1, h2⟩ := next_ok ht hc ha (fun c h => (hcur c h).2)
  rcases h2 with ⟨rfl, hg⟩ | ⟨rfl, hne, hg⟩
  · obtain ⟨u, u1, u2, u3, u4⟩ := unique_ok (nz hg) hg.1
    have hgu : Good w (fun d => Has w d a) u := ⟨Nat.le_trans u4 hg.1, fun d => by rw [u3]; exact hg.2 d⟩
    cases hcc : cur with
    | none =>
      refine ⟨u, by simp [roundOf, hcc ▸ h1, u1], u2, hgu.1, fun d => ?_⟩
      rw [hgu.2]
      have := hnone hcc d
      tauto
    | some c =>
      obtain ⟨c1, c2⟩ := hcur c hcc
      obtain ⟨l, l1, l2, l3, l4⟩ := intersect_ok (nz c2) (nz hgu) (Nat.le_trans (Nat.min_le_left _ _) c2.1)
      refine ⟨l, by simp [roundOf, hcc ▸ h1, u1, l1], l3 c1 u2, Nat.le_trans l4 (Nat.max_le.2 ⟨c2.1, hgu.1⟩), fun d => ?_⟩
      rw [l2, c2.2, hgu.2]; tauto
  · obtain ⟨u, u1, u2, u3, u4⟩ := unique_ok (nz hg) hg.1
    refine ⟨u, by simp [roundOf, h1, u1], u2, Nat.le_trans u4 hg.1, fun d => by rw [u3]; exact hg.2 d⟩

theorem rounds_ok {w : World} {ix : Indexes} {args : List Arg} (ht : Tidy w args) (hc : Current w ix args) :
    ∀ {as : List Arg} {cur : Option (List Nat)} {P : Nat → Prop}, (∀ a ∈ as, a ∈ args) → (as ≠ [] ∨ cur ≠ none) →
      (∀ c, cur = some c → c.Nodup ∧ Good w P c) → (cur = none → ∀ d, P d) →
      ∃ l, rounds w ix as cur = some l ∧ l.Nodup ∧ Good w (fun d => P d ∧ ∀ a ∈ as, Has w d a) l
  | [], cur, P, _, hne, hcur, _ => by
    cases hcc : cur with
    | none => rcases hne with h | h; exact absurd rfl h; exact absurd hcc h
    | some c =>
      obtain ⟨h1, h2⟩ := hcur c hcc
      exact ⟨c, rfl, h1, h2.1, fun d => by rw [h2.2]; simp⟩
  | a :: as, cur, P, has, _, hcur, hnone => by
    obtain ⟨l, h1, h2, h3⟩ := round_ok ht hc (has a (List.mem_cons_self ..)) hcur hnone
    obtain ⟨l', g1, g2, g3⟩ := rounds_ok ht hc (as := as) (cur := some l) (P := fun d => P d ∧ Has w d a)
      (fun a h => has a (List.mem_cons_of_mem _ h)) (.inr (by simp)) (fun c h => by cases h; exact ⟨h2, h3⟩) (fun h => by cases h)
    refine ⟨l', by simp [rounds, h1, g1], g2, g3.1, fun d => ?_⟩
    rw [g3.2]
    simp only [List.mem_cons, forall_eq_or_imp]
    tauto

theorem mem_sorted {args : List Arg} {a : Arg} : a ∈ sorted args ↔ a ∈ args := by
  unfold sorted
  split
  · simp only [List.mem_append, List.mem_filter]
    cases isRecord a.value <;> simp
  · rfl

/-- C71: a query gives exactly the documents in which each of the pairs occurs, each document once, whatever indexes there are.

Missing: databases that are not `Tidy` and indexes that do not give what a comparison of the values would (see below and C70). -/
theorem C71_exact_partial (w : World) (ix : Indexes) (args : List Arg) (ht : Tidy w args) (hc : Current w ix args) (hne : args ≠ []) :
    ∃ l, query w ix args = some l ∧ l.Nodup ∧ ∀ d, d ∈ l ↔ w.isDoc d = true ∧ ∀ a ∈ args, Has w d a := by
  have hs : sorted args ≠ [] := by
    obtain ⟨a, as, rfl⟩ := List.exists_cons_of_ne_nil hne
    exact List.ne_nil_of_mem (mem_sorted.2 (List.mem_cons_self ..))
  obtain ⟨l, h1, h2, h3⟩ := rounds_ok ht hc (as := sorted args) (cur := none) (P := fun _ => True)
    (fun a h => mem_sorted.1 h) (.inl hs) (fun c h => by cases h) (fun _ _ => trivial)
  refine ⟨l, h1, h2, fun d => ?_⟩
  rw [h3.2]
  simp only [mem_sorted, true_and]

/-- C71: which indexes there are makes no difference to the documents that are given -/
theorem C71_indexes_agree (w : World) (ix ix' : Indexes) (args : List Arg) (ht : Tidy w args) (hc : Current w ix args)
    (hc' : Current w ix' args) (hne : args ≠ []) :
    ∃ l l', query w ix args = some l ∧ query w ix' args = some l' ∧ l.Perm l' := by
  obtain ⟨l, h1, h2, h3⟩ := C71_exact_partial w ix args ht hc hne
  obtain ⟨l', g1, g2, g3⟩ := C71_exact_partial w ix' args ht hc' hne
  exact ⟨l, l', h1, g1, (List.perm_ext_iff_of_nodup h2 g2).2 fun d => by rw [h3, g3]⟩

/-! A database given by its references, its pairs and its documents -/

/-- the database with these references between records -/
def made (rows docs : List Nat) (edges : List (Nat × Nat)) (kvs : List (Nat × Val × Col)) : World where
  rows := rows
  kv r := (kvs.find? (·.1 == r)).map (·.2)
  kids p := edges.filterMap fun e => if e.1 = p then some e.2 else none
  parents r := edges.filterMap fun e => if e.2 = r then some e.1 else none
  isDoc d := docs.contains d
  same x y := decide (x = y)

theorem made_kids {rows docs edges kvs} {p r : Nat} : r ∈ (made rows docs edges kvs).kids p ↔ (p, r) ∈ edges := by
  simp only [made, List.mem_filterMap]
  constructor
  · rintro ⟨e, h1, h2⟩
    split at h2
    · next h => cases h2; rw [← h]; exact h1
    · cases h2
  · intro h; exact ⟨_, h, by simp⟩

theorem made_linked {rows docs edges kvs} {p r : Nat} :
    p ∈ (made rows docs edges kvs).parents r ↔ r ∈ (made rows docs edges kvs).kids p := by
  rw [made_kids]
  simp only [made, List.mem_filterMap]
  constructor
  · rintro ⟨e, h1, h2⟩
    split at h2
    · next h => cases h2; rw [← h]; exact h1
    · cases h2
  · intro h; exact ⟨_, h, by simp⟩

theorem at_inv {w : World} {f : Nat → Nat} (h : ∀ p r, r ∈ w.kids p → f r = f p) : ∀ {n d r : Nat}, At w n d r → f r = f d
  | 0, _, _, h' => by simp only [At] at h'; rw [h']
  | n + 1, d, r, ⟨k, hk, h'⟩ => by rw [at_inv h h', h d k hk]

theorem at_level {w : World} {f : Nat → Nat} (h : ∀ p r, r ∈ w.kids p → f r = f p + 1) : ∀ {n d r : Nat}, At w n d r → f r = f d + n
  | 0, _, _, h' => by simp only [At] at h'; rw [h']; rfl
  | n + 1, d, r, ⟨k, hk, h'⟩ => by rw [at_level h h', h d k hk]; omega

theorem at_rows {w : World} {rows : List Nat} (h : ∀ p r, r ∈ w.kids p → r ∈ rows) : ∀ {n d r : Nat}, d ∈ rows → At w n d r → r ∈ rows
  | 0, _, _, hd, h' => by simp only [At] at h'; rwa [← h']
  | n + 1, d, r, _, ⟨k, hk, h'⟩ => at_rows h (h d k hk) h'

theorem made_tidy {rows docs : List Nat} {edges : List (Nat × Nat)} {kvs : List (Nat × Val × Col)} {args : List Arg} (root level : Nat → Nat)
    (h1 : ∀ e ∈ edges, root e.2 = root e.1 ∧ level e.2 = level e.1 + 1 ∧ e.2 ∈ rows) (h2 : ∀ d ∈ docs, root d = d ∧ d ∈ rows ∧ d ≠ 0)
    (h3 : ∀ r, level r < 7) (h4 : ∀ r ∈ rows, (findDoc (made rows docs edges kvs) 6 r).isSome) (h5 : rows.length ≤ most) :
    Tidy (made rows docs edges kvs) args where
  linked _ _ := made_linked
  one r d d' hd hd' h h' := by
    obtain ⟨n, hn⟩ := h
    obtain ⟨m, hm⟩ := h'
    have inv : ∀ p r, r ∈ (made rows docs edges kvs).kids p → root r = root p := fun p r h => (h1 _ (made_kids.1 h)).1
    rw [← (h2 d (by simpa [made] using hd)).1, ← (h2 d' (by simpa [made] using hd')).1, ← at_inv inv hn, ← at_inv inv hm]
  flat d r _ h := by
    have := at_level (f := level) (fun p r h => (h1 _ (made_kids.1 h)).2.1) h
    have := h3 r
    omega
  inside a _ r hr _ := by
    obtain ⟨d, hd⟩ := Option.isSome_iff_exists.1 (h4 r hr)
    exact ⟨d, findDoc_right (fun p r h => made_linked.1 h) hd⟩
  listed d r hd h := by
    obtain ⟨n, hn⟩ := h
    exact at_rows (fun p r h => (h1 _ (made_kids.1 h)).2.2) (h2 d (by simpa [made] using hd)).2.1 hn
  nonzero d hd := (h2 d (by simpa [made] using hd)).2.2
  few := h5

/-- indexes that give what they should -/
def exactly (w : World) : Indexes where
  hash := some fun k v => w.rows.filter (hits w ⟨k, v⟩)
  key := some fun k => w.rows.filter fun r => match w.kv r with
    | some (x, _) => w.same x k
    | none => false

theorem exactly_current {w : World} {args : List Arg} (h : w.rows.length ≤ most) : Current w (exactly w) args where
  hash f hf a _ _ := by
    cases hf
    exact ⟨Nat.le_trans (List.length_filter_le _ _) h, fun r => by rw [List.mem_filter, hits_iff]⟩
  key f hf a _ := by
    cases hf
    refine ⟨Nat.le_trans (List.length_filter_le _ _) h, fun r => ?_⟩
    rw [List.mem_filter]
    cases w.kv r with
    | none => simp
    | some x =>
      obtain ⟨k, c⟩ := x
      simp only [and_congr_right_iff]
      intro _
      constructor
      · intro h; exact ⟨k, c, rfl, h⟩
      · rintro ⟨_, _, h1, h2⟩; cases h1; exact h2

/-- two documents: 1 is {a:1, b:[5,6]}, 7 is {a:1} -/
def two : World := made [1, 2, 3, 4, 7, 8] [1, 7] [(1, 2), (1, 3), (3, 4), (7, 8)]
  [(2, .str [97] none, .val (.int 1)), (3, .str [98] none, .arr 4 [.int 5, .int 6]), (8, .str [97] none, .val (.int 1))]

/-- a is 1 -/
def argA : Arg := ⟨.str [97] none, .int 1⟩
/-- b is 6 -/
def argB : Arg := ⟨.str [98] none, .int 6⟩

theorem two_tidy (args : List Arg) : Tidy two args :=
  made_tidy (fun r => if r < 5 then 1 else 7) (fun r => if r = 4 then 2 else if r = 1 ∨ r = 7 then 0 else 1)
    (by decide) (by decide) (fun r => by split <;> [omega; (split <;> omega)]) (by decide) (by decide)

example : ∃ l, query two (exactly two) [argA, argB] = some l ∧ l.Nodup ∧
    ∀ d, d ∈ l ↔ two.isDoc d = true ∧ ∀ a ∈ [argA, argB], Has two d a :=
  C71_exact_partial two _ _ (two_tidy _) (exactly_current (by decide)) (by simp)

example : query two (exactly two) [argA, argB] = some [1] := by decide +kernel
example : query two ⟨none, none⟩ [argA] = some [1, 7] := by decide +kernel
example : Tidy two [argA] ∧ Current two ⟨none, none⟩ [argA] := ⟨two_tidy _, ⟨fun _ h => (by cases h), fun _ h => (by cases h)⟩⟩

example : ∃ l l', query two (exactly two) [argB, argA] = some l ∧ query two ⟨none, none⟩ [argB, argA] = some l' ∧ l.Perm l' :=
  C71_indexes_agree two _ _ _ (two_tidy _) (exactly_current (by decide)) ⟨fun _ h => (by cases h), fun _ h => (by cases h)⟩ (by simp)

/-! What is not so: the assumptions in `Tidy` are needed. -/

/-- a document with a record seven steps below it; the pairs are in the records 9 and 10 -/
def deep : World := made [1, 2, 3, 4, 5, 6, 7, 8, 9, 10] [1] [(1, 2), (2, 3), (3, 4), (4, 5), (5, 6), (6, 7), (7, 8), (1, 9), (1, 10)]
  [(9, .str [97] none, .val (.int 1)), (10, .str [98] none, .val (.int 6)), (8, .str [99] none, .val (.int 3))]

/-- C71 is false for a deep document, even if the pairs asked for are at its top: without an index the second pair gives an error -/
theorem C71_deep : deep.isDoc 1 = true ∧ Has deep 1 argA ∧ Has deep 1 argB ∧ query deep ⟨none, none⟩ [argA, argB] = none ∧
    query deep (exactly deep) [argA, argB] = some [1] :=
  ⟨by decide, ⟨9, ⟨1, 9, by decide, rfl⟩, hits_iff.1 (by decide)⟩, ⟨10, ⟨1, 10, by decide, rfl⟩, hits_iff.1 (by decide)⟩,
    by decide +kernel, by decide +kernel⟩

/-- and for a pair seven steps down it is an error with the indexes too -/
theorem C71_deep_pair : Has deep 1 ⟨.str [99] none, .int 3⟩ ∧ ∀ ix ∈ [exactly deep, ⟨none, none⟩, ⟨none, (exactly deep).key⟩],
    query deep ix [⟨.str [99] none, .int 3⟩] = none :=
  ⟨⟨8, ⟨7, 2, by decide, 3, by decide, 4, by decide, 5, by decide, 6, by decide, 7, by decide, 8, by decide, rfl⟩, hits_iff.1 (by decide)⟩, by
    intro ix h
    simp only [List.mem_cons, List.not_mem_nil, or_false] at h
    rcases h with rfl | rfl | rfl <;> decide +kernel⟩

/-- the document 1 and a record 3 with the same pair that is in no document -/
def loose : World := made [1, 2, 3] [1] [(1, 2)] [(2, .str [97] none, .val (.int 1)), (3, .str [97] none, .val (.int 1))]

/-- C71 is false if the pair is also outside of documents: nothing is found, the query fails -/
theorem C71_outside : loose.isDoc 1 = true ∧ Has loose 1 argA ∧ ∀ ix ∈ [exactly loose, ⟨none, none⟩, ⟨none, (exactly loose).key⟩],
    query loose ix [argA] = none :=
  ⟨by decide, ⟨2, ⟨1, 2, by decide, rfl⟩, hits_iff.1 (by decide)⟩, by
    intro ix h
    simp only [List.mem_cons, List.not_mem_nil, or_false] at h
    rcases h with rfl | rfl | rfl <;> decide +kernel⟩

/-- two documents that share the record 3 -/
def shared : World := made [1, 2, 3] [1, 2] [(1, 3), (2, 3)] [(3, .str [97] none, .val (.int 1))]

/-- C71 is false for documents that share a part: only one of them is found -/
theorem C71_shared : shared.isDoc 2 = true ∧ Has shared 2 argA ∧ ∀ ix ∈ [exactly shared, ⟨none, none⟩, ⟨none, (exactly shared).key⟩],
    query shared ix [argA] = some [1] :=
  ⟨by decide, ⟨3, ⟨1, 3, by decide, rfl⟩, hits_iff.1 (by decide)⟩, by
    intro ix h
    simp only [List.mem_cons, List.not_mem_nil, or_false] at h
    rcases h with rfl | rfl | rfl <;> decide +kernel⟩

/-! The sets -/

/-- C71: the duplicates are removed, whichever of the two methods is used, up to the largest size -/
theorem C71_unique_partial (l : List Nat) (hn : ∀ k ∈ l, k ≠ 0) (hl : l.length ≤ most) :
    ∃ u, unique l = some u ∧ u.Nodup ∧ ∀ x, x ∈ u ↔ x ∈ l := by
  obtain ⟨u, h1, h2, h3, -⟩ := unique_ok hn hl
  exact ⟨u, h1, h2, h3⟩

example : ∃ u, unique (List.replicate 30 5 ++ [7, 5]) = some u ∧ u.Nodup ∧ ∀ x, x ∈ u ↔ x ∈ List.replicate 30 5 ++ [7, 5] :=
  C71_unique_partial _ (by decide) (by decide)

/-- C71: the intersection, whichever of the two methods is used -/
theorem C71_intersect_partial (a b : List Nat) (ha : ∀ k ∈ a, k ≠ 0) (hb : ∀ k ∈ b, k ≠ 0) (hl : min a.length b.length ≤ most) :
    ∃ l, intersect a b = some l ∧ (∀ x, x ∈ l ↔ x ∈ a ∧ x ∈ b) ∧ (a.Nodup → b.Nodup → l.Nodup) := by
  obtain ⟨l, h1, h2, h3, -⟩ := intersect_ok ha hb hl
  exact ⟨l, h1, h2, h3⟩

example : ∃ l, intersect (List.replicate 30 5) (List.replicate 30 7) = some l ∧ (∀ x, x ∈ l ↔ x ∈ List.replicate 30 5 ∧ x ∈ List.replicate 30 7) ∧
    ((List.replicate 30 5).Nodup → (List.replicate 30 7).Nodup → l.Nodup) :=
  C71_intersect_partial _ _ (by decide) (by decide) (by decide)

/-- The table of sizes goes on to 2147483647, but `p_count` stops short of that: for larger sets the table has fewer places than there are
keys, though the size asked for is accepted. -/
theorem C71_too_few_places (n : Nat) (h1 : most < n) (h2 : n ≤ 2147483645) : dhashSize n = most ∧ dhashSize n < n := by
  have h : (primes.take (pCount - 1)).findIdx? (· > 2 * n) = none := by
    rw [List.findIdx?_eq_none_iff]
    intro p hp
    have : ∀ p ∈ primes.take (pCount - 1), p ≤ most := by decide
    have := this p hp
    simp only [gt_iff_lt, decide_eq_false_iff_not]
    omega
  have he : dhashSize n = most := by
    unfold dhashSize
    rw [if_neg (by omega), h]
    decide
  exact ⟨he, by omega⟩

example : dhashSize 300000000 = most ∧ dhashSize 300000000 < 300000000 := C71_too_few_places _ (by decide) (by decide)

/-- if the duplicates could be removed then there is a place for each key -/
theorem uniqueHash_fits : ∀ (l : List Nat) {t : Keys} {u v : List Nat}, Sized t → (∀ k ∈ l, k ≠ 0) → uniqueHash l t u = some v →
    ∃ f : Nat → Nat, (∀ j, t.slot j ≠ 0 → f j = t.slot j) ∧ ∀ x ∈ l, ∃ j, j < t.size ∧ f j = x
  | [], t, _, _, _, _, _ => ⟨t.slot, fun _ _ => rfl, fun _ h => by cases h⟩
  | x :: l, t, u, v, hs, hn, h => by
    have hx := hn x (List.mem_cons_self ..)
    have hl : lookup t x < t.size := by
      rcases lookup_ok hs x with ⟨m, _, _, _, e⟩ | ⟨_, e⟩
      · rw [e]; exact place_lt hs x m
      · exact e
    simp only [uniqueHash] at h
    split at h
    · next hk =>
      obtain ⟨f, f1, f2⟩ := uniqueHash_fits l hs (fun k hk => hn k (List.mem_cons_of_mem _ hk)) h
      refine ⟨f, f1, fun y hy => ?_⟩
      rcases List.mem_cons.1 hy with rfl | hy
      · have he : t.slot (lookup t y) = y := by simpa [hasKey] using hk
        exact ⟨_, hl, by rw [f1 _ (by rw [he]; exact hx), he]⟩
      · exact f2 y hy
    · next hk =>
      split at h
      · cases h
      · next ha =>
        have he : t.slot (lookup t x) ≠ x := by simpa [hasKey] using hk
        have h0 : t.slot (lookup t x) = 0 := by
          by_contra h0
          exact ha (by simp [addKey, h0, he])
        have hadd : (addKey t x).1 = { t with slot := fun j => if j = lookup t x then x else t.slot j } := by simp [addKey, h0]
        rw [hadd] at h
        obtain ⟨f, f1, f2⟩ := uniqueHash_fits l (t := { t with slot := fun j => if j = lookup t x then x else t.slot j }) hs
          (fun k hk => hn k (List.mem_cons_of_mem _ hk)) h
        refine ⟨f, fun j hj => ?_, fun y hy => ?_⟩
        · have hne : j ≠ lookup t x := fun e => hj (e ▸ h0)
          have := f1 j (by simpa [hne] using hj)
          simpa [hne] using this
        · rcases List.mem_cons.1 hy with rfl | hy
          · exact ⟨_, hl, by rw [f1 _ (by simpa using hx)]; simp⟩
          · exact f2 y hy

/-- C71 is false for very large sets: the duplicates cannot be removed and the query fails -/
theorem C71_too_large (l : List Nat) (hl : l.Nodup) (hn : ∀ k ∈ l, k ≠ 0) (h1 : most < l.length) (h2 : l.length ≤ 2147483645) : unique l = none := by
  obtain ⟨he, -⟩ := C71_too_few_places l.length h1 h2
  have hs : Sized ⟨most, fun _ => 0⟩ := by
    obtain ⟨p1, p2, p3⟩ := dhashSize_ok (n := most) (Nat.le_refl _)
    have : dhashSize most = most := by decide +kernel
    rw [this] at p1 p3
    exact ⟨p1, p3⟩
  have hi : initKeys l.length = some ⟨most, fun _ => 0⟩ := by
    simp only [initKeys, he]
    rfl
  have h20 : ¬ l.length < 20 := by simp only [most] at h1; omega
  unfold unique
  rw [if_neg h20, hi]
  simp only
  cases hu : uniqueHash l ⟨most, fun _ => 0⟩ [] with
  | none => rfl
  | some v =>
    obtain ⟨f, -, f2⟩ := uniqueHash_fits l hs hn hu
    have hsub : l ⊆ (List.range most).map f := fun x hx => by
      obtain ⟨j, hj, hf⟩ := f2 x hx
      exact List.mem_map.2 ⟨j, List.mem_range.2 hj, hf⟩
    have := (List.subperm_of_subset hl hsub).length_le
    rw [List.length_map, List.length_range] at this
    omega

/-- such a set: the numbers from 1 on -/
example : unique (List.range' 1 201326612) = none :=
  C71_too_large _ List.nodup_range' (fun k hk => by rw [List.mem_range'_1] at hk; omega)
    (by rw [List.length_range']; simp [most]) (by rw [List.length_range']; omega)

end Gkc.Props.Jq
