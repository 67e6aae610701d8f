import Verif.ExtHashLemmas
/-
C72: the table that translates offsets gives what was added.
-/
namespace Gkc.Props.Eh
open Gkc.Eh
open Gkc.Jq (rehash)

/-- the pairs are added one after the other, and each time it is a success -/
def adds : List (Nat × Nat) → Tbl → Option Tbl
  | [], t => some t
  | (k, v) :: l, t => match add t k v with
    | some (t', 0) => adds l t'
    | _ => none

/-- starting with an empty table -/
def run (kvs : List (Nat × Nat)) : Option Tbl := adds kvs init

/-- the keys are different -/
def Distinct (kvs : List (Nat × Nat)) : Prop := (kvs.map (·.1)).Nodup

/-- no eight of the keys have the same 22 low bits of the hash -/
def Spread (kvs : List (Nat × Nat)) : Prop :=
  ∀ l : List Nat, l.Nodup → (∀ k ∈ l, k ∈ kvs.map (·.1)) → (∀ k ∈ l, ∀ k' ∈ l, rehash k % 4194304 = rehash k' % 4194304) → l.length ≤ 7

theorem adds_inv : ∀ (l : List (Nat × Nat)) {t t' : Tbl} {kvs : List (Nat × Nat)}, Inv t kvs none → adds l t = some t' → Inv t' (l.reverse ++ kvs) none
  | [], t, t', kvs, h, ha => by cases ha; exact h
  | (k, v) :: l, t, t', kvs, h, ha => by
    obtain ⟨t1, rc, e, h1⟩ := add_ok (k := k) (v := v) h
    rw [adds, e] at ha
    rcases h1 with ⟨rfl, h1⟩ | ⟨rfl, -, -⟩
    · have := adds_inv l h1 ha
      simpa using this
    · cases ha

theorem run_inv {kvs : List (Nat × Nat)} {t : Tbl} (h : run kvs = some t) : Inv t kvs.reverse none := by
  simpa using adds_inv kvs inv_init h

/-- C72: what is found for a key was added with it, and something is found for each key that was added; nothing is assumed about the keys -/
theorem C72_added (kvs : List (Nat × Nat)) (t : Tbl) (h : run kvs = some t) (k : Nat) :
    (∀ v, get t k = some v → (k, v) ∈ kvs) ∧ (∀ v, (k, v) ∈ kvs → (get t k).isSome) := by
  obtain ⟨h1, h2⟩ := get_ok (run_inv h) k
  exact ⟨fun v hv => List.mem_reverse.1 (h1 v hv), fun v hv => h2 v (List.mem_reverse.2 hv)⟩

theorem value_unique {kvs : List (Nat × Nat)} (hd : Distinct kvs) {k v v' : Nat} (h : (k, v) ∈ kvs) (h' : (k, v') ∈ kvs) : v = v' := by
  have := List.inj_on_of_nodup_map hd h h' rfl
  exact congrArg Prod.snd this

/-- C72: for different keys exactly the values that were added are found.

Missing: a key that is added again (see below). -/
theorem C72_exact_partial (kvs : List (Nat × Nat)) (hd : Distinct kvs) (t : Tbl) (h : run kvs = some t) (k v : Nat) :
    get t k = some v ↔ (k, v) ∈ kvs := by
  obtain ⟨h1, h2⟩ := C72_added kvs t h k
  refine ⟨h1 v, fun hv => ?_⟩
  obtain ⟨v', hv'⟩ := Option.isSome_iff_exists.1 (h2 v hv)
  rw [hv', value_unique hd (h1 v' hv') hv]

/-- C72: an offset is translated to the new one, and an offset that is not there stays as it is -/
theorem C72_translate_partial (kvs : List (Nat × Nat)) (hd : Distinct kvs) (t : Tbl) (h : run kvs = some t) (k : Nat) :
    (∀ v, (k, v) ∈ kvs → translate t k = v) ∧ ((∀ v, (k, v) ∉ kvs) → translate t k = k) := by
  refine ⟨fun v hv => by simp [translate, (C72_exact_partial kvs hd t h k v).2 hv], fun hn => ?_⟩
  cases hg : get t k with
  | none => simp [translate, hg]
  | some v => exact absurd ((C72_exact_partial kvs hd t h k v).1 hg) (hn v)

theorem adds_some : ∀ (l : List (Nat × Nat)) {t : Tbl} {kvs : List (Nat × Nat)}, Inv t kvs none → Distinct (l.reverse ++ kvs) → Spread (l.reverse ++ kvs) →
    ∃ t', adds l t = some t'
  | [], t, _, _, _, _ => ⟨t, rfl⟩
  | (k, v) :: l, t, kvs, h, hd, hs => by
    rw [List.reverse_cons, List.append_assoc, List.singleton_append] at hd hs
    obtain ⟨t1, rc, e, h1⟩ := add_ok (k := k) (v := v) h
    rcases h1 with ⟨rfl, h1⟩ | ⟨rfl, ⟨ks, c1, c2, c3, c4⟩, -⟩
    · obtain ⟨t', ht'⟩ := adds_some l h1 hd hs
      exact ⟨t', by rw [adds, e]; exact ht'⟩
    · have hd' : (((k, v) :: kvs).map (·.1)).Nodup := by
        unfold Distinct at hd
        rw [List.map_append] at hd
        exact (List.nodup_append.1 hd).2.1
      have := hs ks (c2 hd') (fun k hk => by rw [List.map_append]; exact List.mem_append_right _ (c3 k hk)) c4
      simp only [cap] at c1
      omega

/-- C72: all additions of different keys are successful and each is found, if no eight of the keys have the same 22 low bits of the hash

Missing: other sets of keys; for these it is false (see below). -/
theorem C72_succeeds_partial (kvs : List (Nat × Nat)) (hd : Distinct kvs) (hs : Spread kvs) :
    ∃ t, run kvs = some t ∧ ∀ k v, get t k = some v ↔ (k, v) ∈ kvs := by
  have e : (kvs.reverse.map (·.1)).Perm (kvs.map (·.1)) := (List.reverse_perm kvs).map _
  obtain ⟨t, ht⟩ := adds_some kvs inv_init (by rw [List.append_nil]; exact e.nodup_iff.2 hd) (by
    rw [List.append_nil]
    intro l h1 h2 h3
    exact hs l h1 (fun k hk => e.mem_iff.1 (h2 k hk)) h3)
  exact ⟨t, ht, C72_exact_partial kvs hd t ht⟩

/-- seven keys at most are never too many -/
theorem C72_few (kvs : List (Nat × Nat)) (hd : Distinct kvs) (h : kvs.length ≤ 7) :
    ∃ t, run kvs = some t ∧ ∀ k v, get t k = some v ↔ (k, v) ∈ kvs :=
  C72_succeeds_partial kvs hd fun l h1 h2 _ => by
    have := (List.subperm_of_subset h1 h2).length_le
    rw [List.length_map] at this
    omega

/-- thirty offsets, so that buckets are split -/
def many : List (Nat × Nat) := (List.range 30).map fun i => (8 * i, i)

example : Distinct many ∧ (run many).isSome := by
  refine ⟨by unfold Distinct; decide, by decide +kernel⟩

/-- keys with different hashes -/
theorem spread_of {kvs : List (Nat × Nat)} (h : ((kvs.map (·.1)).map (rehash · % 4194304)).Nodup) : Spread kvs := by
  intro l h1 h2 h3
  match l, h1, h2, h3 with
  | [], _, _, _ => simp
  | [_], _, _, _ => simp
  | a :: b :: l, h1, h2, h3 =>
    have := List.inj_on_of_nodup_map h (h2 a (by simp)) (h2 b (by simp)) (h3 a (by simp) b (by simp))
    subst this
    simp at h1

example : ∃ t, run many = some t ∧ ∀ k v, get t k = some v ↔ (k, v) ∈ many :=
  C72_succeeds_partial many (by unfold Distinct; decide) (spread_of (by decide +kernel))

example : (run many).bind (get · 80) = some 10 ∧ (run many).bind (get · 81) = none := by decide +kernel

example : ∃ t, run [(8, 1), (16, 2)] = some t ∧ ∀ k v, get t k = some v ↔ (k, v) ∈ [(8, 1), (16, 2)] :=
  C72_few _ (by unfold Distinct; decide) (by decide)

example : (run many).map (translate · 80) = some 10 ∧ (run many).map (translate · 81) = some 81 := by decide +kernel

/-! What is not so -/

/-- If a key is added again the old value is found: C72 is false for keys that are not different.  In a log an offset is used again when a record was deleted. -/
theorem C72_old_value : ∃ t, run [(8, 1), (8, 2)] = some t ∧ get t 8 = some 1 := by
  have h : ((run [(8, 1), (8, 2)]).map (get · 8)) = some (some 1) := by decide +kernel
  simpa using h

/-- But after other keys were added it can be the new value: what is found for a key changes when others are added. -/
theorem C72_value_changes : ∃ t t', run [(0, 1), (0, 2)] = some t ∧ get t 0 = some 1 ∧
    run ([(0, 1), (0, 2)] ++ (List.range 16).map fun i => (16 + 8 * i, 0)) = some t' ∧ get t' 0 = some 2 := by
  have h : ((run [(0, 1), (0, 2)]).map (get · 0)) = some (some 1) := by decide +kernel
  have h' : ((run ([(0, 1), (0, 2)] ++ (List.range 16).map fun i => (16 + 8 * i, 0))).map (get · 0)) = some (some 2) := by decide +kernel
  simp only [Option.map_eq_some_iff] at h h'
  obtain ⟨t, h1, h2⟩ := h
  obtain ⟨t', h3, h4⟩ := h'
  exact ⟨t, t', h1, h2, h3, h4⟩

/-- The eighth addition of one key fails, and if that is ignored the ninth one writes past the end of the bucket. -/
theorem C72_eight_times : ∃ t t', run (List.replicate 7 (8, 1)) = some t ∧ add t 8 1 = some (t', -1) ∧ add t' 8 1 = none := by
  have h : ((run (List.replicate 7 (8, 1))).bind (add · 8 1)).map (·.2) = some (-1) ∧
    (((run (List.replicate 7 (8, 1))).bind (add · 8 1)).map fun p => (add p.1 8 1).isNone) = some true := by decide +kernel
  obtain ⟨h1, h2⟩ := h
  cases hr : run (List.replicate 7 (8, 1)) with
  | none => rw [hr] at h1; cases h1
  | some t =>
    rw [hr] at h1 h2
    simp only [Option.bind_some] at h1 h2
    cases ha : add t 8 1 with
    | none => rw [ha] at h1; cases h1
    | some p =>
      rw [ha] at h1 h2
      obtain ⟨t', rc⟩ := p
      simp only [Option.map_some, Option.some.injEq] at h1 h2
      exact ⟨t, t', rfl, by rw [ha, h1], by simpa using h2⟩

/-- The table has room for 29360128 different keys: with more of them, whichever they are, some addition fails. -/
theorem C72_capacity (kvs : List (Nat × Nat)) (hd : Distinct kvs) (h : 29360128 < kvs.length) : run kvs = none := by
  cases hr : run kvs with
  | none => rfl
  | some t =>
    have hv := run_inv hr
    let f (i : Nat) : List (Nat × Nat) := match t.dir i with
      | some b => (t.heap b).items
      | none => []
    have hf : ∀ i, i < 2 ^ t.level → (f i).length ≤ 7 := by
      intro i hi
      simp only [f]
      cases hb : t.dir i with
      | none => simp
      | some b => exact (hv.fill i b hi hb).2 (by simp)
    have hsub : kvs ⊆ (List.range (2 ^ t.level)).flatMap f := by
      intro kv hkv
      obtain ⟨b, hb, hm⟩ := (hv.content kv).1 (List.mem_reverse.2 hkv)
      exact List.mem_flatMap.2 ⟨rehash kv.1 % 2 ^ t.level, List.mem_range.2 (Nat.mod_lt _ (Nat.two_pow_pos _)), by simp only [f, hb]; exact hm⟩
    have hlen : ∀ n, n ≤ 2 ^ t.level → ((List.range n).flatMap f).length ≤ 7 * n := by
      intro n
      induction n with
      | zero => intro _; simp
      | succ n ih =>
        intro hn
        rw [List.range_succ, List.flatMap_append, List.length_append]
        have := ih (by omega)
        have := hf n (by omega)
        simp only [List.flatMap_cons, List.flatMap_nil, List.append_nil]
        omega
    have h1 := (List.subperm_of_subset (List.Nodup.of_map _ hd) hsub).length_le
    have h2 := hlen _ (Nat.le_refl _)
    have h3 : 2 ^ t.level ≤ 2 ^ 22 := Nat.pow_le_pow_right (by decide) (by have := hv.top; simp only [maxLevel] at this; omega)
    have h4 : 2 ^ 22 = 4194304 := by decide
    omega

example : run ((List.range 29360129).map fun i => (i, 0)) = none :=
  C72_capacity _ (by
    have : (((List.range 29360129).map fun i => (i, 0)).map (·.1)) = List.range 29360129 := by
      rw [List.map_map]; exact List.map_id _
    unfold Distinct
    rw [this]; exact List.nodup_range) (by rw [List.length_map, List.length_range]; decide)

end Gkc.Props.Eh
