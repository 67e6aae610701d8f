import Verif.HashIndex
import Mathlib.Algebra.BigOperators.Group.List.Basic
/-
About the hash index: what is under a key, and which values have the same key.
-/
namespace Gkc.Hx

/-- no chain has two buckets with one key -/
def Inv (t : Table) : Prop := ∀ h, ((t.chain h).map Prod.fst).Nodup

theorem inv_create (n : Nat) : Inv (create n) := by intro h; simp [create]

theorem find_create (n : Nat) (k : List UInt8) : find (create n) k = [] := by simp [find, create, bucket]

theorem bucket_addTo (k k' : List UInt8) (r : Nat) (c : Chain) :
    bucket k' (addTo k r c) = if k' = k then (bucket k c).map (r :: ·) else bucket k' c := by
  induction c with
  | nil => simp [addTo, bucket]
  | cons e c ih =>
    obtain ⟨x, l⟩ := e
    by_cases h : x = k
    · subst h
      by_cases h' : k' = x
      · subst h'; simp [addTo, bucket]
      · simp [addTo, bucket, h', Ne.symm h']
    · by_cases h' : k' = k
      · subst h'; simp [addTo, bucket, h, ih]
      · simp only [addTo, h, if_false, bucket, ih, h']

theorem addTo_keys (k : List UInt8) (r : Nat) (c : Chain) : (addTo k r c).map Prod.fst = c.map Prod.fst := by
  induction c with
  | nil => rfl
  | cons e c ih =>
    obtain ⟨x, l⟩ := e
    by_cases h : x = k <;> simp [addTo, h, ih]

theorem bucket_none {k : List UInt8} {c : Chain} : bucket k c = none ↔ k ∉ c.map Prod.fst := by
  induction c with
  | nil => simp [bucket]
  | cons e c ih =>
    obtain ⟨x, l⟩ := e
    by_cases h : x = k
    · subst h; simp [bucket]
    · simp [bucket, h, ih, Ne.symm h]

theorem inv_set {t : Table} (hi : Inv t) (h : Nat) {c : Chain} (hc : (c.map Prod.fst).Nodup) : Inv (t.set h c) := by
  intro j
  by_cases hj : j = h
  · simp [Table.set, hj, hc]
  · simpa [Table.set, hj] using hi j

theorem inv_store {t : Table} (hi : Inv t) (k : List UInt8) (r : Nat) : Inv (store t k r) := by
  unfold store
  simp only
  split
  · exact inv_set hi _ (by rw [addTo_keys]; exact hi _)
  · rename_i hb
    refine inv_set hi _ ?_
    simp only [List.map_cons, List.nodup_cons]
    exact ⟨bucket_none.1 hb, hi _⟩

theorem find_store (t : Table) (k k' : List UInt8) (r : Nat) :
    find (store t k r) k' = if k' = k then r :: find t k else find t k' := by
  have hs : (store t k r).size = t.size := by unfold store; simp only; split <;> rfl
  unfold find
  rw [hs]
  by_cases h : k' = k
  · subst h
    unfold store
    simp only [if_true]
    split <;> rename_i hb
    · simp [Table.set, bucket_addTo, hb]
    · simp [Table.set, bucket, hb]
  · simp only [h, if_false]
    unfold store
    simp only
    by_cases hh : hashBytes t.size k' = hashBytes t.size k
    · split <;> rename_i hb
      · simp [Table.set, hh, bucket_addTo, h]
      · simp [Table.set, hh, bucket, Ne.symm h]
    · split <;> simp [Table.set, hh]

theorem removeFrom_ok {k : List UInt8} {r : Nat} {c : Chain} (hn : (c.map Prod.fst).Nodup) (hr : r ∈ (bucket k c).getD []) :
    ∃ c', removeFrom k r c = some c' ∧ (c'.map Prod.fst).Sublist (c.map Prod.fst) ∧
      ∀ k', (bucket k' c').getD [] = if k' = k then ((bucket k c).getD []).erase r else (bucket k' c).getD [] := by
  induction c with
  | nil => simp [bucket] at hr
  | cons e c ih =>
    obtain ⟨x, l⟩ := e
    simp only [List.map_cons, List.nodup_cons] at hn
    by_cases h : x = k
    · subst h
      simp only [bucket, if_true, Option.getD_some] at hr
      by_cases he : (l.erase r).isEmpty
      · refine ⟨c, by simp [removeFrom, hr, he], by simp, fun k' => ?_⟩
        by_cases h' : k' = x
        · subst h'
          have : l.erase r = [] := by simpa using he
          simp [bucket, this, bucket_none.2 hn.1]
        · simp [bucket, h', Ne.symm h']
      · refine ⟨(x, l.erase r) :: c, by simp [removeFrom, hr, he], by simp, fun k' => ?_⟩
        by_cases h' : k' = x
        · subst h'; simp [bucket]
        · simp [bucket, h', Ne.symm h']
    · simp only [bucket, h, if_false] at hr
      obtain ⟨c', h1, h2, h3⟩ := ih hn.2 hr
      refine ⟨(x, l) :: c', by simp [removeFrom, h, h1], by simpa using h2, fun k' => ?_⟩
      by_cases h' : x = k'
      · subst h'; simp [bucket, h]
      · simp only [bucket, h', if_false, h, h3 k']

theorem remove_ok {t : Table} (hi : Inv t) {k : List UInt8} {r : Nat} (hr : r ∈ find t k) :
    (remove t k r).2 = 0 ∧ Inv (remove t k r).1 ∧
      ∀ k', find (remove t k r).1 k' = if k' = k then (find t k).erase r else find t k' := by
  obtain ⟨c', h1, h2, h3⟩ := removeFrom_ok (hi (hashBytes t.size k)) hr
  have he : remove t k r = (t.set (hashBytes t.size k) c', 0) := by simp [remove, h1]
  rw [he]
  refine ⟨rfl, inv_set hi _ (h2.nodup (hi _)), fun k' => ?_⟩
  unfold find
  by_cases hh : hashBytes t.size k' = hashBytes t.size k
  · simpa [Table.set, hh] using h3 k'
  · have : k' ≠ k := fun h => hh (by rw [h])
    simp [Table.set, hh, this]

/-- the values a column stands for -/
def members (expand : Bool) : Col → List Val
  | .arr off l => if expand then l else [.record off]
  | .val v => [v]

/-- the bytes of a value that has any -/
def fld (v : Val) : List UInt8 := (field v).getD []

/-- the key of some values -/
def key : List Val → List UInt8 → List UInt8
  | [], pre => pre
  | v :: vs, pre => key vs (join pre (fld v))

/-- all keys of a row -/
def keys (expand : Bool) : List Col → List UInt8 → List (List UInt8)
  | [], pre => [pre]
  | c :: cs, pre => (members expand c).flatMap fun v => keys expand cs (join pre (fld v))

/-- one key after another -/
def runOps {α : Type} (op : List UInt8 → α → α × Int) : List (List UInt8) → α → α × Int
  | [], s => (s, 0)
  | k :: ks, s => if (op k s).2 ≠ 0 then op k s else runOps op ks (op k s).1

theorem runOps_append {α : Type} (op : List UInt8 → α → α × Int) (a b : List (List UInt8)) (s : α) :
    runOps op (a ++ b) s = if (runOps op a s).2 ≠ 0 then runOps op a s else runOps op b (runOps op a s).1 := by
  induction a generalizing s with
  | nil => simp [runOps]
  | cons k ks ih =>
    by_cases h : (op k s).2 = 0
    · simp [runOps, h, ih]
    · simp [runOps, h]

theorem runOps_single {α : Type} (op : List UInt8 → α → α × Int) (k : List UInt8) (s : α) : runOps op [k] s = op k s := by
  by_cases h : (op k s).2 = 0
  · simp only [runOps, h, ne_eq, not_true, if_false]; rw [← h]
  · simp [runOps, h]

theorem recurse_eq {α : Type} (op : List UInt8 → α → α × Int) (expand : Bool) :
    ∀ (cs : List Col) (pre : List UInt8) (s : α), (∀ c ∈ cs, ∀ v ∈ members expand c, (field v).isSome) →
      recurse op expand cs pre s = runOps op (keys expand cs pre) s
  | [], pre, s, _ => by simp [recurse, keys, runOps_single]
  | c :: cs, pre, s, hh => by
    have hrec := fun p s => recurse_eq op expand cs p s (fun c hc => hh c (List.mem_cons_of_mem _ hc))
    have hc := hh c (List.mem_cons_self ..)
    have one : ∀ v s, (field v).isSome → (match field v with
        | none => (s, (-1 : Int))
        | some b => recurse op expand cs (join pre b) s) = runOps op (keys expand cs (join pre (fld v))) s := by
      intro v s hv
      obtain ⟨b, hb⟩ := Option.isSome_iff_exists.1 hv
      simp [hb, fld, hrec]
    have many : ∀ (l : List Val) s, (∀ v ∈ l, (field v).isSome) → through (fun v s => match field v with
        | none => (s, (-1 : Int))
        | some b => recurse op expand cs (join pre b) s) l s = runOps op (l.flatMap fun v => keys expand cs (join pre (fld v))) s := by
      intro l
      induction l with
      | nil => intro s _; simp [through, runOps]
      | cons v vs ih =>
        intro s hl
        have h1 := one v s (hl v (List.mem_cons_self ..))
        simp only [through, h1, List.flatMap_cons, runOps_append]
        split
        · rfl
        · exact ih _ (fun v hv => hl v (List.mem_cons_of_mem _ hv))
    cases expand with
    | false =>
      have hw : members false c = [c.word] := by cases c <;> rfl
      rw [hw] at hc
      have h1 := one c.word s (hc _ (List.mem_singleton_self _))
      simp only [recurse, keys, hw, List.flatMap_cons, List.flatMap_nil, List.append_nil]
      exact h1
    | true =>
      cases c with
      | val v =>
        have h1 := one v s (hc _ (List.mem_singleton_self _))
        simp only [recurse, keys, members, List.flatMap_cons, List.flatMap_nil, List.append_nil]
        exact h1
      | arr off l =>
        simp only [recurse, keys, members, if_true]
        exact many l s (by simpa [members] using hc)

theorem run_store (r : Nat) : ∀ (ks : List (List UInt8)) (t : Table), Inv t →
    (runOps (fun k t => (store t k r, 0)) ks t).2 = 0 ∧ Inv (runOps (fun k t => (store t k r, 0)) ks t).1 ∧
    ∀ k r', (find (runOps (fun k t => (store t k r, 0)) ks t).1 k).count r' =
      (find t k).count r' + if r = r' then ks.count k else 0
  | [], t, hi => by simp [runOps, hi]
  | x :: ks, t, hi => by
    obtain ⟨h1, h2, h3⟩ := run_store r ks _ (inv_store hi x r)
    simp only [runOps, ne_eq, not_true, if_false]
    refine ⟨h1, h2, fun k r' => ?_⟩
    rw [h3, find_store, List.count_cons]
    by_cases hk : k = x
    · subst hk
      by_cases hr : r = r'
      · subst hr; simp; omega
      · simp [hr]
    · have : ¬ x = k := fun h => hk h.symm
      simp [hk, this]

theorem run_remove (r : Nat) : ∀ (ks : List (List UInt8)) (t : Table), Inv t → (∀ k, ks.count k ≤ (find t k).count r) →
    (runOps (fun k t => remove t k r) ks t).2 = 0 ∧ Inv (runOps (fun k t => remove t k r) ks t).1 ∧
    ∀ k r', (find (runOps (fun k t => remove t k r) ks t).1 k).count r' + (if r = r' then ks.count k else 0) =
      (find t k).count r'
  | [], t, hi, _ => by simp [runOps, hi]
  | x :: ks, t, hi, hc => by
    have hx : r ∈ find t x := by
      have := hc x
      rw [List.count_cons_self] at this
      exact List.count_pos_iff.1 (by omega)
    obtain ⟨e1, e2, e3⟩ := remove_ok hi hx
    have hc' : ∀ k, ks.count k ≤ (find (remove t x r).1 k).count r := by
      intro k
      have h := hc k
      rw [e3]
      by_cases hk : k = x
      · subst hk
        rw [List.count_cons_self] at h
        simp only [if_true, List.count_erase_self]; omega
      · have hk' : ¬ x = k := fun h => hk h.symm
        rw [List.count_cons_of_ne hk'] at h
        simpa [hk] using h
    obtain ⟨h1, h2, h3⟩ := run_remove r ks _ e2 hc'
    simp only [runOps, e1, ne_eq, not_true, if_false]
    refine ⟨h1, h2, fun k r' => ?_⟩
    have h := h3 k r'
    rw [e3] at h
    by_cases hk : k = x
    · subst hk
      have hp := List.count_pos_iff.2 hx
      by_cases hr : r = r'
      · subst hr
        simp only [if_true, List.count_erase_self, List.count_cons_self] at h ⊢
        omega
      · simp only [if_true, hr, if_false] at h ⊢
        rw [List.count_erase_of_ne (fun e => hr e.symm)] at h
        exact h
    · have hk' : ¬ x = k := fun h => hk h.symm
      rw [List.count_cons_of_ne hk']
      simpa [hk] using h

theorem mem_keys {expand : Bool} {k : List UInt8} : ∀ {cs : List Col} {pre : List UInt8},
    k ∈ keys expand cs pre ↔ ∃ vals, List.Forall₂ (fun c v => v ∈ members expand c) cs vals ∧ key vals pre = k
  | [], pre => by
    constructor
    · intro h; exact ⟨[], .nil, by simpa [keys, key, eq_comm] using h⟩
    · rintro ⟨vals, h, rfl⟩; cases h; simp [keys, key]
  | c :: cs, pre => by
    simp only [keys, List.mem_flatMap, mem_keys (cs := cs)]
    constructor
    · rintro ⟨v, hv, vals, h, rfl⟩; exact ⟨v :: vals, .cons hv h, rfl⟩
    · rintro ⟨vals, h, rfl⟩
      cases h with
      | cons hv h => exact ⟨_, hv, _, h, rfl⟩

theorem keys_false (cs : List Col) (pre : List UInt8) : keys false cs pre = [key (cs.map Col.word) pre] := by
  induction cs generalizing pre with
  | nil => rfl
  | cons c cs ih =>
    have hw : members false c = [c.word] := by cases c <;> rfl
    simp [keys, hw, ih, key]

theorem search_eq (t : Table) (vals : List Val) (hh : ∀ v ∈ vals, (field v).isSome) : search t vals = some (find t (key vals [])) := by
  have h := recurse_eq (fun k (_ : List Nat) => (find t k, 0)) false (vals.map .val) [] [] (by
    intro c hc v hv
    obtain ⟨w, hw, rfl⟩ := List.mem_map.1 hc
    simp only [members, List.mem_singleton] at hv
    subst hv; exact hh _ hw)
  have hk : keys false (vals.map Col.val) [] = [key vals []] := by
    rw [keys_false]; simp [Function.comp_def, Col.word]
  rw [hk, runOps_single] at h
  simp [search, h]

end Gkc.Hx
