import Verif.StrHash

/-!
C51: equal names have equal words, different names have different words.
-/
namespace Gkc.Props
open Gkc.StrHash

/-! ### The specification -/

/-- What can be passed to the encoders: the language, type or prefix is a C string. -/
def NameOk (k : Key) : Prop := ∀ e, k.extra = some e → (0 : Byte) ∉ e

/-- Kept once: everything but strings without language of less than 32 characters (with the
terminating zero, at most 32 bytes). -/
def KeptOnce (k : Key) : Prop := k.ty ≠ .str ∨ k.extra ≠ none ∨ 32 < k.data.length

/-! ### Chains -/

/-- the objects of a chain -/
def Linked (g : Seg) : Option Nat → List Nat → Prop
  | none, [] => True
  | some o, o' :: os => o = o' ∧ ∃ ob, g.obj o = some ob ∧ Linked g ob.next os
  | _, _ => False

/-- the object at `p.1` holds `p.2` -/
def HoldsKey (db : Db) (p : Nat × Key) : Prop :=
  ∃ ob, db.seg.obj p.1 = some ob ∧ ob.ty = p.2.ty ∧ ob.data = p.2.data ∧
    match ob.extra, p.2.extra with
    | none, none => True
    | some r, some e => db.cstr r = some e
    | _, _ => False

/-- The invariant, for the strings `T` of the database, newest first, and the strings `K` of the
attached knowledge base; `c`: there always is memory for list cells. -/
structure StrInv (c : Prop) (db : Db) (T : List (Nat × Key)) : Prop where
  chain : ∀ i, Linked db.seg (db.seg.tbl i) ((T.filter fun p => slot db.seg p.2 = i).map (·.1))
  holds : ∀ p ∈ T, HoldsKey db p
  once : (T.map (·.2)).Nodup
  count : T.length ≤ db.seg.count
  idlt : ∀ p ∈ T, ∀ a, db.seg.obj p.1 = some a → a.id < db.seg.count
  ids : T.Pairwise fun p q => ∀ a b, db.seg.obj p.1 = some a → db.seg.obj q.1 = some b → b.id < a.id
  uris : ∀ r ∈ db.seg.uris, ∃ p ∈ T, p.2.ty = .uri ∧ r = db.ref false p.1
  uriOnce : db.seg.uris.Nodup
  uriAll : c → ∀ p ∈ T, p.2.ty = .uri → db.ref false p.1 ∈ db.seg.uris

/-- with the knowledge base -/
structure KInv (c : Prop) (db : Db) (T K : List (Nat × Key)) : Prop where
  own : StrInv c db T
  noKb : db.kb = none → K = []
  kb : ∀ g, db.kb = some g → StrInv c ⟨g, none⟩ K
  apart : ∀ p ∈ T, p.2 ∉ K.map (·.2)

/-- nothing is lost -/
structure Grow (db db' : Db) : Prop where
  kb : db'.kb = db.kb
  size : db'.seg.size = db.seg.size
  obj : ∀ o ob, db.seg.obj o = some ob → db'.seg.obj o = some ob
  short : ∀ o s, db.seg.short o = some s → db'.seg.short o = some s

theorem grow_refl (db : Db) : Grow db db := ⟨rfl, rfl, fun _ _ h => h, fun _ _ h => h⟩

theorem grow_trans {a b c : Db} (h : Grow a b) (h' : Grow b c) : Grow a c :=
  ⟨h'.kb.trans h.kb, h'.size.trans h.size, fun o ob x => h'.obj o ob (h.obj o ob x), fun o s x => h'.short o s (h.short o s x)⟩

/-- C strings stay, `db'` may differ in the other fields of objects -/
theorem cstr_mono {db db' : Db} (hk : db'.kb = db.kb)
    (ho : ∀ o ob, db.seg.obj o = some ob → ∃ ob', db'.seg.obj o = some ob' ∧ ob'.data = ob.data)
    (hs' : ∀ o s, db.seg.short o = some s → db'.seg.short o = some s) {r : Ref} {e : List Byte}
    (h : db.cstr r = some e) : db'.cstr r = some e := by
  have key : ∀ g g' : Seg, (∀ o ob, g.obj o = some ob → ∃ ob', g'.obj o = some ob' ∧ ob'.data = ob.data) →
      (∀ o s, g.short o = some s → g'.short o = some s) → ∀ s, g.bytes r = some s → g'.bytes r = some s := by
    intro g g' h1 h2 s h3
    unfold Seg.bytes at h3 ⊢
    by_cases hr : r.short
    · simp only [hr, if_true] at h3 ⊢
      exact h2 _ _ h3
    · simp only [hr, Bool.false_eq_true, if_false] at h3 ⊢
      cases hx : g.obj r.off with
      | none => simp [hx] at h3
      | some ob =>
        obtain ⟨ob', h4, h5⟩ := h1 _ _ hx
        rw [h4]; rw [hx] at h3; simpa [h5] using h3
  have key2 : ∀ s, (db.segOf r).bind (·.bytes r) = some s → (db'.segOf r).bind (·.bytes r) = some s := by
    intro s hs
    unfold Db.segOf Db.base at hs ⊢
    rw [hk]
    by_cases hl : r.loc
    · simp only [hl, if_true] at hs ⊢
      cases hx : db.kb with
      | none => simp [hx] at hs
      | some g => simp only [hx, Option.map_some, Option.bind_some] at hs ⊢; exact key _ _ ho hs' s hs
    · simp only [hl, Bool.false_eq_true, if_false] at hs ⊢
      cases hx : db.kb with
      | none => simp only [hx, Option.bind_some] at hs ⊢; exact key _ _ ho hs' s hs
      | some g => simpa only [hx] using hs
  unfold Db.cstr at h ⊢
  cases hx : (db.segOf r).bind (·.bytes r) with
  | none => simp [hx] at h
  | some s => rw [key2 s hx]; rw [hx] at h; exact h

theorem grow_cstr {db db' : Db} (h : Grow db db') {r : Ref} {e : List Byte} (hc : db.cstr r = some e) :
    db'.cstr r = some e :=
  cstr_mono h.kb (fun o ob x => ⟨ob, h.obj o ob x, rfl⟩) h.short hc

theorem linked_mono {g g' : Seg} : ∀ {L : List Nat} {s : Option Nat},
    (∀ o ∈ L, g'.obj o = g.obj o) → Linked g s L → Linked g' s L := by
  intro L
  induction L with
  | nil => intro s _ h; cases s <;> simp_all [Linked]
  | cons o os ih =>
    intro s hm h
    cases s with
    | none => simp [Linked] at h
    | some o' =>
      obtain ⟨rfl, ob, h1, h2⟩ := h
      exact ⟨rfl, ob, by rw [hm _ (by simp)]; exact h1, ih (fun x hx => hm x (by simp [hx])) h2⟩

/-! ### Searching -/

theorem right_eq {db : Db} {o : Nat} {k' k : Key} {ob : Obj} (h : HoldsKey db (o, k')) (ho : db.seg.obj o = some ob) :
    right db ob k = some (decide (k' = k)) := by
  obtain ⟨ob', h1, h2, h3, h4⟩ := h
  have : ob' = ob := by simpa using h1.symm.trans ho
  subst this
  obtain ⟨t, d, e⟩ := k'
  obtain ⟨t', d', e'⟩ := k
  simp only at h2 h3 h4
  unfold right
  simp only [h2, h3]
  by_cases ht : t = t'
  · by_cases hd : d = d'
    · subst ht; subst hd
      simp only [ne_eq, not_true_eq_false, if_false]
      cases hx : ob'.extra with
      | none =>
        rw [hx] at h4
        cases e with
        | none => cases e' <;> simp
        | some _ => simp at h4
      | some r =>
        rw [hx] at h4
        cases e with
        | none => simp at h4
        | some e =>
          simp only at h4
          cases e' with
          | none => simp
          | some e' => simp [h4]
    · have : ¬ (Key.mk t d e = Key.mk t' d' e') := by intro hh; injection hh; contradiction
      by_cases hl : d.length = d'.length <;> simp [ht, hl, hd]
  · simp [ht]

theorem findFrom_eq {db : Db} {k : Key} : ∀ (L : List (Nat × Key)) (n : Nat) (s : Option Nat), L.length ≤ n →
    Linked db.seg s (L.map (·.1)) → (∀ p ∈ L, HoldsKey db p) →
    (∃ o, (o, k) ∈ L ∧ findFrom db db.seg k n s = some (some o)) ∨
      (k ∉ L.map (·.2) ∧ findFrom db db.seg k n s = some none) := by
  intro L
  induction L with
  | nil =>
    intro n s _ h _
    cases s with
    | some _ => simp [Linked] at h
    | none => right; cases n <;> simp [findFrom]
  | cons p L ih =>
    intro n s hn h hh
    obtain ⟨o, k'⟩ := p
    cases s with
    | none => simp [Linked] at h
    | some o' =>
      obtain ⟨h0, ob, h1, h2⟩ := h
      subst h0
      cases n with
      | zero => simp at hn
      | succ n =>
        have hr := right_eq (k := k) (hh (o', k') (by simp)) h1
        simp only [findFrom, h1, hr]
        by_cases hk : k' = k
        · left; subst hk; exact ⟨o', by simp, by simp⟩
        · simp only [hk, decide_false]
          rcases ih n ob.next (by simpa using hn) h2 (fun p hp => hh p (by simp [hp])) with ⟨x, hx, hy⟩ | ⟨hx, hy⟩
          · left; exact ⟨x, by simp [hx], hy⟩
          · right
            refine ⟨?_, hy⟩
            simp only [List.map_cons, List.mem_cons, not_or]
            exact ⟨fun h => hk h.symm, hx⟩

theorem find_eq {c : Prop} {db : Db} {T : List (Nat × Key)} (h : StrInv c db T) (k : Key) :
    (∃ o, (o, k) ∈ T ∧ find db db.seg k = some (some o)) ∨ (k ∉ T.map (·.2) ∧ find db db.seg k = some none) := by
  have hl : (T.filter fun p => slot db.seg p.2 = slot db.seg k).length ≤ db.seg.count :=
    Nat.le_trans (List.length_filter_le ..) h.count
  rcases findFrom_eq (k := k) _ _ _ hl (h.chain (slot db.seg k)) (fun p hp => h.holds p (List.mem_filter.mp hp).1) with
    ⟨o, h1, h2⟩ | ⟨h1, h2⟩
  · exact .inl ⟨o, (List.mem_filter.mp h1).1, h2⟩
  · right
    refine ⟨fun hm => h1 ?_, h2⟩
    obtain ⟨p, hp, hk⟩ := List.mem_map.mp hm
    exact List.mem_map.mpr ⟨p, List.mem_filter.mpr ⟨hp, by simp [hk]⟩, hk⟩

theorem findKb_eq {c : Prop} {db : Db} {T K : List (Nat × Key)} (h : KInv c db T K) (k : Key) :
    (∃ o, (o, k) ∈ K ∧ findKb db k = some (some o)) ∨ (k ∉ K.map (·.2) ∧ findKb db k = some none) := by
  unfold findKb
  cases hk : db.kb with
  | none => right; simp [h.noKb hk]
  | some g =>
    have hg := h.kb g hk
    exact find_eq hg k

/-- the words of the database and of the knowledge base -/
def words (db : Db) (T K : List (Nat × Key)) : List (Ref × Key) :=
  T.map (fun p => (db.ref false p.1, p.2)) ++ K.map (fun p => (⟨false, false, p.1⟩, p.2))

/-! ### Storing -/

theorem reserve_grow {db : Db} {o : Nat} (k : Key) (ho : db.seg.obj o = none) : Grow db (db.reserve o k) := by
  refine ⟨rfl, rfl, ?_, fun _ _ h => h⟩
  intro o' ob h
  have : o' ≠ o := by rintro rfl; simp [ho] at h
  simpa [Db.reserve, this] using h

theorem holdsKey_mono {db db' : Db} (h : Grow db db') {p : Nat × Key} (hp : HoldsKey db p) : HoldsKey db' p := by
  obtain ⟨ob, h1, h2, h3, h4⟩ := hp
  refine ⟨ob, h.obj _ _ h1, h2, h3, ?_⟩
  cases hx : ob.extra <;> cases hy : p.2.extra <;> simp only [hx, hy] at h4 ⊢
  exact grow_cstr h h4

theorem slot_size {g g' : Seg} (h : g'.size = g.size) (k : Key) : slot g' k = slot g k := by
  simp [slot, h]

/-- a change of the memory that keeps the table, the count and the list -/
theorem sinv_mono {c : Prop} {db db' : Db} {T : List (Nat × Key)} (h : StrInv c db T) (hg : Grow db db')
    (h1 : db'.seg.tbl = db.seg.tbl) (h2 : db'.seg.count = db.seg.count) (h3 : db'.seg.uris = db.seg.uris) :
    StrInv c db' T := by
  have hobj : ∀ p ∈ T, db'.seg.obj p.1 = db.seg.obj p.1 := by
    intro p hp
    obtain ⟨ob, ho, _⟩ := h.holds p hp
    rw [ho, hg.obj _ _ ho]
  have href : ∀ o, db'.ref false o = db.ref false o := fun o => by simp [Db.ref, hg.kb]
  constructor
  · intro i
    rw [h1]
    have : (T.filter fun p => slot db'.seg p.2 = i) = T.filter fun p => slot db.seg p.2 = i := by
      simp only [slot_size hg.size]
    rw [this]
    refine linked_mono ?_ (h.chain i)
    intro o ho
    obtain ⟨p, hp, rfl⟩ := List.mem_map.mp ho
    exact hobj p (List.mem_filter.mp hp).1
  · intro p hp; exact holdsKey_mono hg (h.holds p hp)
  · exact h.once
  · rw [h2]; exact h.count
  · intro p hp a ha
    rw [h2]; rw [hobj p hp] at ha
    exact h.idlt p hp a ha
  · refine h.ids.imp_of_mem ?_
    intro p q hp hq hpq a b ha hb
    rw [hobj p hp] at ha; rw [hobj q hq] at hb
    exact hpq a b ha hb
  · intro r hr
    rw [h3] at hr
    obtain ⟨p, hp, hq, he⟩ := h.uris r hr
    exact ⟨p, hp, hq, by rw [href, he]⟩
  · rw [h3]; exact h.uriOnce
  · intro hc p hp hu
    rw [h3, href]; exact h.uriAll hc p hp hu

theorem kinv_mono {c : Prop} {db db' : Db} {T K : List (Nat × Key)} (h : KInv c db T K) (hg : Grow db db')
    (h1 : db'.seg.tbl = db.seg.tbl) (h2 : db'.seg.count = db.seg.count) (h3 : db'.seg.uris = db.seg.uris) :
    KInv c db' T K :=
  ⟨sinv_mono h.own hg h1 h2 h3, by rw [hg.kb]; exact h.noKb, by rw [hg.kb]; exact h.kb, h.apart⟩

/-- what storing `k` does -/
def StoredKey (c : Prop) (db : Db) (T K : List (Nat × Key)) (k : Key) (x : Option Res) : Prop :=
  ∃ db' X r, x = some (db', r) ∧ KInv c db' (X ++ T) K ∧ Grow db db' ∧
    (∀ p ∈ X, db.seg.obj p.1 = none ∧ (p.2 = k ∨ p.2.ty = .str ∧ p.2.extra = none)) ∧
    (k.ty ≠ .uri → db'.seg.uris = db.seg.uris) ∧
    ∀ w, r = some w → (w, k) ∈ words db' (X ++ T) K

/-- what storing the extra string `e` does -/
def StoredExtra (c : Prop) (db : Db) (T K : List (Nat × Key)) (e : List Byte) (x : Option Res) : Prop :=
  ∃ db' X r, x = some (db', r) ∧ KInv c db' (X ++ T) K ∧ Grow db db' ∧
    (∀ p ∈ X, db.seg.obj p.1 = none ∧ p.2.ty = .str ∧ p.2.extra = none) ∧
    db'.seg.uris = db.seg.uris ∧ ∀ w, r = some w → db'.cstr w = some e

theorem holdsKey_key {db : Db} {o : Nat} {k k' : Key} (h : HoldsKey db (o, k)) (h' : HoldsKey db (o, k')) : k = k' := by
  obtain ⟨ob, h1, h2, h3, h4⟩ := h
  obtain ⟨ob', h1', h2', h3', h4'⟩ := h'
  have : ob' = ob := by simpa using h1'.symm.trans h1
  subst this
  obtain ⟨t, d, e⟩ := k
  obtain ⟨t', d', e'⟩ := k'
  simp only at h2 h3 h4 h2' h3' h4'
  have he : e = e' := by
    cases hx : ob'.extra with
    | none =>
      rw [hx] at h4 h4'
      cases e <;> cases e' <;> simp_all
    | some r =>
      rw [hx] at h4 h4'
      cases e <;> cases e' <;> simp_all
  rw [← h2, ← h3, h2', h3', he]

/-- The new object is put in front of its chain.  `T` was the list before the extra string was
stored, which may have added `X`. -/
theorem link_inv {c : Prop} {db db2 : Db} {T X K : List (Nat × Key)} {o : Nat} {k : Key} {ob0 : Obj} {x : Option Ref}
    (h : KInv c db T K) (h2 : KInv c db2 (X ++ T) K) (hg : Grow db db2) (hu : db2.seg.uris = db.seg.uris)
    (hnew : db.seg.obj o = none) (hob : db2.seg.obj o = some ob0) (hdata : ob0.data = k.data)
    (hX : ∀ p ∈ X, p.1 ≠ o) (hfresh : k ∉ T.map (·.2)) (hXk : k ∉ X.map (·.2)) (hkb : k ∉ K.map (·.2))
    (hx : match x, k.extra with
      | none, none => True
      | some r, some e => db2.cstr r = some e
      | _, _ => False) :
    let db3 := db2.link o k x (db.seg.tbl (slot db.seg k))
    let T3 := (o, k) :: (X.filter (fun p => slot db.seg p.2 ≠ slot db.seg k) ++ T)
    (∀ i, Linked db3.seg (db3.seg.tbl i) ((T3.filter fun p => slot db3.seg p.2 = i).map (·.1))) ∧
    (∀ p ∈ T3, HoldsKey db3 p) ∧ (T3.map (·.2)).Nodup ∧ T3.length ≤ db3.seg.count ∧
    (∀ p ∈ T3, ∀ a, db3.seg.obj p.1 = some a → a.id < db3.seg.count) ∧
    (T3.Pairwise fun p q => ∀ a b, db3.seg.obj p.1 = some a → db3.seg.obj q.1 = some b → b.id < a.id) ∧
    (∀ p ∈ T3, p.2 ∉ K.map (·.2)) ∧ Grow db db3 := by
  intro db3 T3
  have hsub : (X.filter (fun p => slot db.seg p.2 ≠ slot db.seg k) ++ T).Sublist (X ++ T) :=
    (List.filter_sublist).append (List.Sublist.refl T)
  have hT : ∀ p ∈ T, p.1 ≠ o := by
    rintro p hp rfl
    obtain ⟨ob, ho, _⟩ := h.own.holds p hp
    simp [hnew] at ho
  have hXT : ∀ p ∈ X ++ T, p.1 ≠ o := by
    intro p hp
    rcases List.mem_append.mp hp with hp | hp
    · exact hX p hp
    · exact hT p hp
  have hobj : ∀ j, j ≠ o → db3.seg.obj j = db2.seg.obj j := by
    intro j hj; simp [db3, Db.link, hj]
  have hobjo : db3.seg.obj o = some ⟨k.ty, k.data, x, db.seg.tbl (slot db.seg k), db2.seg.count⟩ := by
    simp [db3, Db.link]
  have hslot3 : ∀ k', slot db3.seg k' = slot db.seg k' := fun k' => slot_size (g := db.seg) (g' := db3.seg) hg.size k'
  have hslot2 : ∀ k', slot db2.seg k' = slot db.seg k' := fun k' => slot_size hg.size k'
  have hcstr : ∀ r e, db2.cstr r = some e → db3.cstr r = some e := by
    intro r e hr
    refine cstr_mono (db := db2) (db' := db3) rfl ?_ (fun _ _ hs => hs) hr
    intro j ob hj
    by_cases hjo : j = o
    · subst hjo
      have : ob = ob0 := by simpa using hj.symm.trans hob
      subst this
      exact ⟨_, hobjo, hdata.symm⟩
    · exact ⟨ob, by rw [hobj j hjo]; exact hj, rfl⟩
  have hholds : ∀ p ∈ X ++ T, HoldsKey db3 p := by
    intro p hp
    obtain ⟨ob, h1, h3, h4, h5⟩ := h2.own.holds p hp
    refine ⟨ob, by rw [hobj _ (hXT p hp)]; exact h1, h3, h4, ?_⟩
    cases hy : ob.extra <;> cases hz : p.2.extra <;> simp only [hy, hz] at h5 ⊢
    exact hcstr _ _ h5
  refine ⟨?_, ?_, ?_, ?_, ?_, ?_, ?_, ?_⟩
  · intro i
    by_cases hi : i = slot db.seg k
    · have htbl : db3.seg.tbl i = some o := by simp [db3, Db.link, hslot2, hi]
      have hf : (T3.filter fun p => slot db3.seg p.2 = i) = (o, k) :: T.filter fun p => slot db.seg p.2 = i := by
        have hnil : (X.filter (fun p => slot db.seg p.2 ≠ slot db.seg k)).filter (fun p => slot db.seg p.2 = i) = [] := by
          rw [List.filter_filter]
          refine List.filter_eq_nil_iff.mpr ?_
          intro p _
          simp [hi]
        simp only [T3, hslot3, List.filter_cons, List.filter_append, hnil, List.nil_append]
        simp [hi]
      rw [htbl, hf]
      refine ⟨rfl, _, hobjo, ?_⟩
      show Linked db3.seg (db.seg.tbl (slot db.seg k)) _
      rw [← hi]
      refine linked_mono ?_ (h.own.chain i)
      intro j hj
      obtain ⟨p, hp, rfl⟩ := List.mem_map.mp hj
      have hp' := (List.mem_filter.mp hp).1
      obtain ⟨ob, ho, _⟩ := h.own.holds p hp'
      rw [hobj _ (hT p hp'), ho, hg.obj _ _ ho]
    · have htbl : db3.seg.tbl i = db2.seg.tbl i := by simp [db3, Db.link, hslot2, hi]
      have hf : (T3.filter fun p => slot db3.seg p.2 = i) = (X ++ T).filter fun p => slot db2.seg p.2 = i := by
        have hX' : (X.filter (fun p => slot db.seg p.2 ≠ slot db.seg k)).filter (fun p => slot db.seg p.2 = i) =
            X.filter fun p => slot db.seg p.2 = i := by
          rw [List.filter_filter]
          refine List.filter_congr ?_
          intro p _
          by_cases hpi : slot db.seg p.2 = i
          · simp [hpi, hi]
          · simp [hpi]
        have hki : ¬ slot db.seg k = i := fun hh => hi hh.symm
        simp only [T3, hslot3, hslot2, List.filter_cons, List.filter_append, hX']
        simp [hki]
      rw [htbl, hf]
      refine linked_mono ?_ (h2.own.chain i)
      intro j hj
      obtain ⟨p, hp, rfl⟩ := List.mem_map.mp hj
      exact hobj _ (hXT p (List.mem_filter.mp hp).1)
  · intro p hp
    rcases List.mem_cons.mp hp with rfl | hp
    · refine ⟨_, hobjo, rfl, rfl, ?_⟩
      cases x <;> cases hz : k.extra <;> simp only [hz] at hx ⊢
      exact hcstr _ _ hx
    · exact hholds p (hsub.subset hp)
  · refine List.nodup_cons.mpr ⟨?_, List.Nodup.sublist (hsub.map (·.2)) h2.own.once⟩
    intro hm
    have := (hsub.map (·.2)).subset hm
    rw [List.map_append, List.mem_append] at this
    exact this.elim hXk hfresh
  · exact Nat.succ_le_succ (Nat.le_trans hsub.length_le h2.own.count)
  · intro p hp a ha
    show a.id < db2.seg.count + 1
    rcases List.mem_cons.mp hp with rfl | hp
    · have := Option.some.inj (ha.symm.trans hobjo)
      subst this; exact Nat.lt_succ_self _
    · have hp' := hsub.subset hp
      rw [hobj _ (hXT p hp')] at ha
      exact Nat.lt_succ_of_lt (h2.own.idlt p hp' a ha)
  · refine List.pairwise_cons.mpr ⟨?_, ?_⟩
    · intro q hq a b ha hb
      have := Option.some.inj (ha.symm.trans hobjo)
      subst this
      have hq' := hsub.subset hq
      rw [hobj _ (hXT q hq')] at hb
      exact h2.own.idlt q hq' b hb
    · refine (h2.own.ids.sublist hsub).imp_of_mem ?_
      intro p q hp hq hpq a b ha hb
      rw [hobj _ (hXT p (hsub.subset hp))] at ha
      rw [hobj _ (hXT q (hsub.subset hq))] at hb
      exact hpq a b ha hb
  · intro p hp
    rcases List.mem_cons.mp hp with rfl | hp
    · exact hkb
    · exact h2.apart p (hsub.subset hp)
  · refine ⟨hg.kb, hg.size, ?_, hg.short⟩
    intro j ob hj
    have : j ≠ o := by rintro rfl; simp [hnew] at hj
    rw [hobj j this]; exact hg.obj j ob hj

theorem ref_inj {db : Db} {a b : Nat} (h : db.ref false a = db.ref false b) : a = b := by
  simpa [Db.ref] using h

/-- the whole of `finish` -/
theorem finish_stored {al : Al} {c : Prop} (hc : c → ∀ db, al.cell db = true) {db db2 : Db} {T X K : List (Nat × Key)}
    {o : Nat} {k : Key} {ob0 : Obj} {x : Option Ref}
    (h : KInv c db T K) (h2 : KInv c db2 (X ++ T) K) (hg : Grow db db2) (hu : db2.seg.uris = db.seg.uris)
    (hnew : db.seg.obj o = none) (hob : db2.seg.obj o = some ob0) (hdata : ob0.data = k.data)
    (hX : ∀ p ∈ X, p.1 ≠ o ∧ db.seg.obj p.1 = none ∧ p.2.ty = .str ∧ p.2.extra = none)
    (hfresh : k ∉ T.map (·.2)) (hXk : k ∉ X.map (·.2)) (hkb : k ∉ K.map (·.2))
    (hx : match x, k.extra with
      | none, none => True
      | some r, some e => db2.cstr r = some e
      | _, _ => False) :
    StoredKey c db T K k (some (finish al (db2.link o k x (db.seg.tbl (slot db.seg k))) k (db.ref false o))) := by
  obtain ⟨a1, a2, a3, a4, a5, a6, a7, a8⟩ :=
    link_inv (x := x) h h2 hg hu hnew hob hdata (fun p hp => (hX p hp).1) hfresh hXk hkb hx
  generalize hdb3 : db2.link o k x (db.seg.tbl (slot db.seg k)) = db3 at a1 a2 a3 a4 a5 a6 a7 a8 ⊢
  have hu3 : db3.seg.uris = db.seg.uris := by rw [← hdb3]; exact hu
  have href : ∀ o, db3.ref false o = db.ref false o := fun o => by simp [Db.ref, a8.kb]
  generalize hT3 : (o, k) :: (X.filter (fun p => slot db.seg p.2 ≠ slot db.seg k) ++ T) = T3 at a1 a2 a3 a4 a5 a6 a7
  have hTT : ∀ p ∈ T, p ∈ T3 := by intro p hp; rw [← hT3]; simp [hp]
  have hok : (o, k) ∈ T3 := by rw [← hT3]; simp
  have hX3 : ∃ X3, T3 = X3 ++ T ∧
      ∀ p ∈ X3, db.seg.obj p.1 = none ∧ (p.2 = k ∨ p.2.ty = .str ∧ p.2.extra = none) := by
    refine ⟨(o, k) :: X.filter (fun p => slot db.seg p.2 ≠ slot db.seg k), by rw [← hT3]; rfl, ?_⟩
    intro p hp
    rcases List.mem_cons.mp hp with rfl | hp
    · exact ⟨hnew, .inl rfl⟩
    · exact ⟨(hX p (List.mem_filter.mp hp).1).2.1, .inr (hX p (List.mem_filter.mp hp).1).2.2⟩
  obtain ⟨X3, hX3, hX4⟩ := hX3
  have hT3mem : ∀ p ∈ T3, p = (o, k) ∨ p ∈ T ∨ p.2.ty = .str := by
    intro p hp
    rw [← hT3] at hp
    rcases List.mem_cons.mp hp with rfl | hp
    · exact .inl rfl
    · rcases List.mem_append.mp hp with hp | hp
      · exact .inr (.inr (hX p (List.mem_filter.mp hp).1).2.2.1)
      · exact .inr (.inl hp)
  have huris : ∀ r ∈ db3.seg.uris, ∃ p ∈ T3, p.2.ty = .uri ∧ r = db3.ref false p.1 := by
    intro r hr
    rw [hu3] at hr
    obtain ⟨p, hp, hq, he⟩ := h.own.uris r hr
    exact ⟨p, hTT p hp, hq, by rw [href, he]⟩
  have hkb3 : ∀ d : Db, d.kb = db3.kb → (d.kb = none → K = []) ∧ ∀ g, d.kb = some g → StrInv c ⟨g, none⟩ K := by
    intro d hd
    rw [hd, a8.kb]
    exact ⟨h.noKb, h.kb⟩
  unfold finish
  by_cases hty : k.ty = .uri
  · have hnotin : db.ref false o ∉ db3.seg.uris := by
      intro hm
      rw [hu3] at hm
      obtain ⟨p, hp, _, he⟩ := h.own.uris _ hm
      have := ref_inj he
      subst this
      obtain ⟨ob, ho, _⟩ := h.own.holds p hp
      simp [hnew] at ho
    by_cases hcell : al.cell db3 = true
    · simp only [hty, hcell, if_true]
      refine ⟨_, X3, _, rfl, ?_, ?_, hX4, by simp [hty], ?_⟩
      · rw [← hX3]
        have a2' : ∀ p ∈ T3, HoldsKey (db3.listUri (db.ref false o)) p := fun p hp =>
          holdsKey_mono (db := db3) (db' := db3.listUri (db.ref false o)) ⟨rfl, rfl, fun _ _ h => h, fun _ _ h => h⟩ (a2 p hp)
        have a1' : ∀ i, Linked (db3.listUri (db.ref false o)).seg ((db3.listUri (db.ref false o)).seg.tbl i)
            ((T3.filter fun p => slot (db3.listUri (db.ref false o)).seg p.2 = i).map (·.1)) := fun i =>
          linked_mono (g := db3.seg) (fun _ _ => rfl) (a1 i)
        refine ⟨⟨a1', a2', a3, a4, a5, a6, ?_, ?_, ?_⟩, (hkb3 _ rfl).1, (hkb3 _ rfl).2, a7⟩
        · intro r hr
          rcases List.mem_cons.mp hr with rfl | hr
          · exact ⟨(o, k), hok, hty, (href o).symm⟩
          · exact huris r hr
        · exact List.nodup_cons.mpr ⟨hnotin, by rw [hu3]; exact h.own.uriOnce⟩
        · intro hcc p hp hpu
          show db3.ref false p.1 ∈ db.ref false o :: db3.seg.uris
          rw [href, hu3]
          rcases hT3mem p hp with rfl | hp | hp
          · simp
          · exact List.mem_cons_of_mem _ (h.own.uriAll hcc p hp hpu)
          · rw [hp] at hpu; exact absurd hpu (by simp)
      · exact ⟨a8.kb, a8.size, a8.obj, a8.short⟩
      · intro w hw
        have : db.ref false o = w := by simpa using hw
        subst this
        rw [← hX3]
        refine List.mem_append.mpr (.inl (List.mem_map.mpr ⟨(o, k), hok, ?_⟩))
        show (db3.ref false o, k) = _
        rw [href]
    · simp only [hty, hcell, if_true, Bool.false_eq_true, if_false]
      refine ⟨_, X3, _, rfl, ?_, a8, hX4, by simp [hty], by simp⟩
      rw [← hX3]
      refine ⟨⟨a1, a2, a3, a4, a5, a6, huris, by rw [hu3]; exact h.own.uriOnce, ?_⟩, (hkb3 _ rfl).1, (hkb3 _ rfl).2, a7⟩
      intro hcc
      exact absurd (hc hcc db3) hcell
  · simp only [hty, if_false]
    refine ⟨_, X3, _, rfl, ?_, a8, hX4, fun _ => hu3, ?_⟩
    · rw [← hX3]
      refine ⟨⟨a1, a2, a3, a4, a5, a6, huris, by rw [hu3]; exact h.own.uriOnce, ?_⟩, (hkb3 _ rfl).1, (hkb3 _ rfl).2, a7⟩
      intro hcc p hp hpu
      rw [href, hu3]
      rcases hT3mem p hp with rfl | hp | hp
      · exact absurd hpu hty
      · exact h.own.uriAll hcc p hp hpu
      · rw [hp] at hpu; exact absurd hpu (by simp)
    · intro w hw
      have : db.ref false o = w := by simpa using hw
      subst this
      rw [← hX3]
      refine List.mem_append.mpr (.inl (List.mem_map.mpr ⟨(o, k), hok, ?_⟩))
      show (db3.ref false o, k) = _
      rw [href]

theorem stored_same {c : Prop} {db : Db} {T K : List (Nat × Key)} {k : Key} (h : KInv c db T K) {r : Option Ref}
    (hr : ∀ w, r = some w → (w, k) ∈ words db T K) : StoredKey c db T K k (some (db, r)) :=
  ⟨db, [], r, rfl, h, grow_refl db, by simp, fun _ => rfl, hr⟩

theorem findCreate_stored {al : Al} {c : Prop} (hc : c → ∀ db, al.cell db = true)
    {ext : Db → List Byte → Option Res} {db : Db} {T K : List (Nat × Key)} {k : Key} (h : KInv c db T K)
    (hext : ∀ e, k.extra = some e → ∀ db1, KInv c db1 T K → StoredExtra c db1 T K e (ext db1 e)) :
    StoredKey c db T K k (findCreate al ext db k) := by
  unfold findCreate
  rcases findKb_eq h k with ⟨o, h1, h2⟩ | ⟨h1, h2⟩
  · rw [h2]
    refine stored_same h ?_
    intro w hw
    have : Ref.mk false false o = w := by simpa using hw
    subst this
    exact List.mem_append.mpr (.inr (List.mem_map.mpr ⟨(o, k), h1, rfl⟩))
  · rw [h2]
    rcases find_eq h.own k with ⟨o, h3, h4⟩ | ⟨h3, h4⟩
    · simp only [h4]
      refine stored_same h ?_
      intro w hw
      have : db.ref false o = w := by simpa using hw
      subst this
      exact List.mem_append.mpr (.inl (List.mem_map.mpr ⟨(o, k), h3, rfl⟩))
    · simp only [h4]
      unfold create
      cases hl : al.long db with
      | none => exact stored_same h (by simp)
      | some o =>
        have hnew := al.long_new db o hl
        have hrg := reserve_grow k hnew
        have hr : KInv c (db.reserve o k) T K := kinv_mono h hrg rfl rfl rfl
        have hro : (db.reserve o k).seg.obj o = some ⟨k.ty, k.data, none, none, 0⟩ := by simp [Db.reserve]
        simp only
        cases hke : k.extra with
        | none =>
          simp only [storeExtra, hke]
          exact finish_stored (X := []) hc h hr hrg rfl hnew hro rfl (by simp) h3 (by simp) h1 (by simp [hke])
        | some e =>
          obtain ⟨db2, X, r, b1, b2, b3, b4, b5, b6⟩ := hext e hke _ hr
          have hXo : ∀ p ∈ X, p.1 ≠ o ∧ db.seg.obj p.1 = none ∧ p.2.ty = .str ∧ p.2.extra = none := by
            intro p hp
            obtain ⟨q1, q2, q3⟩ := b4 p hp
            have hne : p.1 ≠ o := by rintro heq; rw [heq, hro] at q1; simp at q1
            refine ⟨hne, ?_, q2, q3⟩
            simpa [Db.reserve, hne] using q1
          simp only [storeExtra, hke, b1]
          cases r with
          | none =>
            refine ⟨db2, X, none, rfl, b2, grow_trans hrg b3, ?_, fun _ => b5, by simp⟩
            intro p hp
            exact ⟨(hXo p hp).2.1, .inr (hXo p hp).2.2⟩
          | some r =>
            have hXk : k ∉ X.map (·.2) := by
              intro hm
              obtain ⟨p, hp, he⟩ := List.mem_map.mp hm
              have := (hXo p hp).2.2.2
              rw [he, hke] at this
              exact absurd this (by simp)
            refine finish_stored hc h b2 (grow_trans hrg b3) b5 hnew (b3.obj _ _ hro) rfl hXo h3 hXk h1 ?_
            simpa [hke] using b6 r rfl

theorem cut_data {e : List Byte} (he : (0 : Byte) ∉ e) : (e ++ [0]).takeWhile (· != 0) = e := by
  induction e with
  | nil => simp
  | cons b e ih =>
    have hb : (b != 0) = true := by
      simp only [bne_iff_ne, ne_eq]
      exact fun h => he (by rw [h]; exact List.mem_cons_self)
    rw [List.cons_append, List.takeWhile_cons_of_pos (p := (· != 0)) hb, ih (fun h => he (List.mem_cons_of_mem _ h))]

/-- the word of a kept string leads to its bytes -/
theorem words_obj {c : Prop} {db : Db} {T K : List (Nat × Key)} (h : KInv c db T K) {w : Ref} {k : Key}
    (hw : (w, k) ∈ words db T K) : w.short = false ∧ ∃ g ob, db.segOf w = some g ∧ g.obj w.off = some ob ∧ ob.ty = k.ty ∧ ob.data = k.data ∧
      match ob.extra, k.extra with
      | none, none => True
      | some r, some e => db.cstr r = some e
      | _, _ => False := by
  rcases List.mem_append.mp hw with hw | hw
  · obtain ⟨⟨o, k'⟩, hp, he⟩ := List.mem_map.mp hw
    have he1 : db.ref false o = w := congrArg Prod.fst he
    have he2 : k' = k := congrArg Prod.snd he
    subst he1; subst he2
    refine ⟨rfl, ?_⟩
    obtain ⟨ob, h1, h2⟩ := h.own.holds _ hp
    refine ⟨db.seg, ob, ?_, h1, h2⟩
    unfold Db.segOf Db.ref Db.base
    cases hk : db.kb <;> simp
  · obtain ⟨⟨o, k'⟩, hp, he⟩ := List.mem_map.mp hw
    have he1 : Ref.mk false false o = w := congrArg Prod.fst he
    have he2 : k' = k := congrArg Prod.snd he
    subst he1; subst he2
    refine ⟨rfl, ?_⟩
    cases hk : db.kb with
    | none => rw [h.noKb hk] at hp; simp at hp
    | some g =>
      have hg := h.kb g hk
      obtain ⟨ob, h1, h2, h3, h4⟩ := hg.holds _ hp
      refine ⟨g, ob, by simp [Db.segOf, Db.base, hk], h1, h2, h3, ?_⟩
      cases hy : ob.extra <;> cases hz : k'.extra <;> simp only [hy, hz] at h4 ⊢
      rename_i r e
      unfold Db.cstr Db.segOf Db.base at h4 ⊢
      by_cases hl : r.loc
      · simp [hl] at h4
      · simp only [hl, Bool.false_eq_true, if_false, hk] at h4 ⊢
        exact h4

theorem words_decode {c : Prop} {db : Db} {T K : List (Nat × Key)} (h : KInv c db T K) {w : Ref} {k : Key}
    (hw : (w, k) ∈ words db T K) : db.decode w = some k := by
  obtain ⟨hs, g, ob, h1, h2, h3, h4, h5⟩ := words_obj h hw
  obtain ⟨t, d, e⟩ := k
  simp only at h3 h4 h5
  unfold Db.decode
  simp only [h1, hs, Bool.false_eq_true, if_false, h2]
  cases hy : ob.extra <;> cases e <;> simp only [hy] at h5 ⊢
  · rw [h3, h4]
  · simp [h5, h3, h4]

theorem words_cstr {c : Prop} {db : Db} {T K : List (Nat × Key)} (h : KInv c db T K) {w : Ref} {e : List Byte}
    (he : (0 : Byte) ∉ e) (hw : (w, (⟨.str, e ++ [0], none⟩ : Key)) ∈ words db T K) : db.cstr w = some e := by
  obtain ⟨hs, g, ob, h1, h2, h3, h4, h5⟩ := words_obj h hw
  simp only at h4
  have := cut_data he
  unfold Db.cstr Seg.bytes
  simp only [h1, hs, h2, h4, Option.bind_some, Bool.false_eq_true, if_false, Option.map_some, this]

theorem decode_grow {db db' : Db} (hg : Grow db db') {w : Ref} {k : Key} (h : db.decode w = some k) :
    db'.decode w = some k := by
  have hseg : ∀ g, db.segOf w = some g → ∃ g', db'.segOf w = some g' ∧
      (∀ o ob, g.obj o = some ob → g'.obj o = some ob) ∧ ∀ o s, g.short o = some s → g'.short o = some s := by
    intro g hs
    unfold Db.segOf Db.base at hs ⊢
    rw [hg.kb]
    by_cases hl : w.loc
    · simp only [hl, if_true] at hs ⊢
      cases hx : db.kb with
      | none => simp [hx] at hs
      | some k0 =>
        simp only [hx, Option.map_some, Option.some.injEq] at hs
        subst hs
        exact ⟨_, rfl, hg.obj, hg.short⟩
    · simp only [hl, Bool.false_eq_true, if_false] at hs ⊢
      cases hx : db.kb with
      | none =>
        simp only [hx, Option.some.injEq] at hs
        subst hs
        exact ⟨_, rfl, hg.obj, hg.short⟩
      | some k0 =>
        simp only [hx, Option.some.injEq] at hs
        subst hs
        exact ⟨_, rfl, fun _ _ h => h, fun _ _ h => h⟩
  unfold Db.decode at h ⊢
  cases hs : db.segOf w with
  | none => simp [hs] at h
  | some g =>
    obtain ⟨g', h1, h2, h3⟩ := hseg g hs
    simp only [hs] at h
    simp only [h1]
    by_cases hsh : w.short
    · simp only [hsh, if_true] at h ⊢
      cases hx : g.short w.off with
      | none => simp [hx] at h
      | some b => rw [h3 _ _ hx]; rw [hx] at h; exact h
    · simp only [hsh, Bool.false_eq_true, if_false] at h ⊢
      cases hx : g.obj w.off with
      | none => simp [hx] at h
      | some ob =>
        simp only [hx] at h
        simp only [h2 _ _ hx]
        cases hy : ob.extra with
        | none => simpa only [hy] using h
        | some r =>
          simp only [hy] at h ⊢
          cases hz : db.cstr r with
          | none => simp [hz] at h
          | some b => rw [grow_cstr hg hz]; rw [hz] at h; exact h

theorem words_mono {db db' : Db} (hk : db'.kb = db.kb) {T K X : List (Nat × Key)} {p : Ref × Key}
    (h : p ∈ words db T K) : p ∈ words db' (X ++ T) K := by
  unfold words at h ⊢
  rcases List.mem_append.mp h with h | h
  · obtain ⟨q, hq, rfl⟩ := List.mem_map.mp h
    refine List.mem_append.mpr (.inl (List.mem_map.mpr ⟨q, by simp [hq], ?_⟩))
    simp [Db.ref, hk]
  · exact List.mem_append.mpr (.inr h)

theorem short_stored {al : Al} {c : Prop} {db : Db} {T K : List (Nat × Key)} (h : KInv c db T K) (data : List Byte) :
    ∃ db' r, encodeShort al db data = (db', r) ∧ KInv c db' T K ∧ Grow db db' ∧ db'.seg.uris = db.seg.uris ∧
      ∀ w, r = some w → w.short = true ∧ db.decode w = none ∧ db'.decode w = some ⟨.str, data, none⟩ ∧
        db'.cstr w = some (data.takeWhile (· != 0)) := by
  unfold encodeShort
  cases hs : al.short db with
  | none => exact ⟨db, none, rfl, h, grow_refl db, rfl, by simp⟩
  | some o =>
    have hnew := al.short_new db o hs
    have hg : Grow db { db with seg := { db.seg with short := fun j => if j = o then some data else db.seg.short j } } := by
      refine ⟨rfl, rfl, fun _ _ h => h, ?_⟩
      intro j s hj
      have : j ≠ o := by rintro rfl; simp [hnew] at hj
      simpa [this] using hj
    refine ⟨_, _, rfl, kinv_mono h hg rfl rfl rfl, hg, rfl, ?_⟩
    intro w hw
    have : db.ref true o = w := by simpa using hw
    subst this
    refine ⟨rfl, ?_, ?_, ?_⟩
    · unfold Db.decode Db.segOf Db.ref Db.base
      cases hk : db.kb <;> simp [hnew]
    · unfold Db.decode Db.segOf Db.ref Db.base
      cases hk : db.kb <;> simp
    · unfold Db.cstr Db.segOf Seg.bytes Db.ref Db.base
      cases hk : db.kb <;> simp

theorem extra_stored {al : Al} {c : Prop} (hc : c → ∀ db, al.cell db = true) {db : Db} {T K : List (Nat × Key)}
    (h : KInv c db T K) {e : List Byte} (he : (0 : Byte) ∉ e) : StoredExtra c db T K e (encodeExtra al db e) := by
  unfold encodeExtra
  simp only
  split
  · obtain ⟨db', r, h1, h2, h3, h4, h5⟩ := short_stored (al := al) h (e ++ [0])
    refine ⟨db', [], r, by rw [h1], h2, h3, by simp, h4, ?_⟩
    intro w hw
    rw [(h5 w hw).2.2.2, cut_data he]
  · obtain ⟨db', X, r, h1, h2, h3, h4, h5, h6⟩ :=
      findCreate_stored (al := al) (ext := fun d _ => some (d, none)) (k := ⟨.str, e ++ [0], none⟩) hc h (by simp)
    refine ⟨db', X, r, h1, h2, h3, ?_, h5 (by simp), fun w hw => words_cstr h2 he (h6 w hw)⟩
    intro p hp
    obtain ⟨q1, q2⟩ := h4 p hp
    rcases q2 with q2 | q2
    · exact ⟨q1, by rw [q2], by rw [q2]⟩
    · exact ⟨q1, q2⟩

theorem isShort_iff (k : Key) : isShort k = true ↔ ¬ KeptOnce k := by
  unfold isShort KeptOnce
  cases hx : k.extra <;> simp

/-- what is known of a word given for a name -/
def Given (db : Db) (T K : List (Nat × Key)) (k : Key) (w : Ref) : Prop :=
  db.decode w = some k ∧ (KeptOnce k → (w, k) ∈ words db T K) ∧ (¬ KeptOnce k → w.short = true)

theorem given_mono {db db' : Db} (hg : Grow db db') {T K X : List (Nat × Key)} {k : Key} {w : Ref}
    (h : Given db T K k w) : Given db' (X ++ T) K k w :=
  ⟨decode_grow hg h.1, fun hk => words_mono hg.kb (h.2.1 hk), h.2.2⟩

theorem encode_given {al : Al} {c : Prop} (hc : c → ∀ db, al.cell db = true) {db : Db} {T K : List (Nat × Key)}
    (h : KInv c db T K) {k : Key} (hk : NameOk k) :
    ∃ db' X r, encode al db k = some (db', r) ∧ KInv c db' (X ++ T) K ∧ Grow db db' ∧
      ∀ w, r = some w → Given db' (X ++ T) K k w := by
  unfold encode
  by_cases hs : isShort k = true
  · have hk' := (isShort_iff k).mp hs
    obtain ⟨db', r, h1, h2, h3, h4, h5⟩ := short_stored (al := al) h k.data
    refine ⟨db', [], r, by rw [if_pos hs, h1], h2, h3, ?_⟩
    intro w hw
    refine ⟨?_, fun hh => absurd hh hk', fun _ => (h5 w hw).1⟩
    rw [(h5 w hw).2.2.1]
    obtain ⟨t, d, e⟩ := k
    simp only [isShort, Bool.and_eq_true, decide_eq_true_eq, Option.isNone_iff_eq_none] at hs
    rw [hs.1.1, hs.1.2]
  · obtain ⟨db', X, r, h1, h2, h3, h4, h5, h6⟩ :=
      findCreate_stored (al := al) (ext := encodeExtra al) (k := k) hc h
        (fun e he db1 h1 => extra_stored hc h1 (hk e he))
    refine ⟨db', X, r, by rw [if_neg hs, h1], h2, h3, ?_⟩
    intro w hw
    refine ⟨words_decode h2 (h6 w hw), fun _ => h6 w hw, fun hh => absurd ((isShort_iff k).mpr hh) hs⟩

theorem encodeAll_given {al : Al} {c : Prop} (hc : c → ∀ db, al.cell db = true) {K : List (Nat × Key)} :
    ∀ {ks : List Key} {db : Db} {T : List (Nat × Key)}, KInv c db T K → (∀ k ∈ ks, NameOk k) →
    ∃ db' X rs, encodeAll al db ks = some (db', rs) ∧ KInv c db' (X ++ T) K ∧ Grow db db' ∧ rs.length = ks.length ∧
      ∀ k w, (k, some w) ∈ ks.zip rs → Given db' (X ++ T) K k w := by
  intro ks
  induction ks with
  | nil => intro db T h _; exact ⟨db, [], [], rfl, h, grow_refl db, rfl, by simp⟩
  | cons k ks ih =>
    intro db T h hk
    obtain ⟨db1, X1, r, a1, a2, a3, a4⟩ := encode_given (al := al) hc h (hk k (by simp))
    obtain ⟨db2, X2, rs, b1, b2, b3, b4, b5⟩ := ih a2 (fun k' h' => hk k' (by simp [h']))
    refine ⟨db2, X2 ++ X1, r :: rs, by simp [encodeAll, a1, b1], by rw [List.append_assoc]; exact b2,
      grow_trans a3 b3, by simp [b4], ?_⟩
    intro k' w hw
    rw [List.append_assoc]
    rcases List.mem_cons.mp hw with hw | hw
    · injection hw with e1 e2
      subst e1
      exact given_mono b3 (a4 w e2.symm)
    · exact b5 k' w hw

/-- the words of kept strings are one for each -/
theorem words_iff {c : Prop} {db : Db} {T K : List (Nat × Key)} (h : KInv c db T K) {w w' : Ref} {k k' : Key}
    (hw : (w, k) ∈ words db T K) (hw' : (w', k') ∈ words db T K) : w = w' ↔ k = k' := by
  constructor
  · rintro rfl
    have := words_decode h hw
    rw [words_decode h hw'] at this
    exact (Option.some.inj this).symm
  · rintro rfl
    have uniq : ∀ (L : List (Nat × Key)) (a b : Nat), (L.map (·.2)).Nodup → (a, k) ∈ L → (b, k) ∈ L → a = b := by
      intro L
      induction L with
      | nil => intro a b _ ha; simp at ha
      | cons p L ih =>
        intro a b hn ha hb
        rw [List.map_cons, List.nodup_cons] at hn
        rcases List.mem_cons.mp ha with ha | ha <;> rcases List.mem_cons.mp hb with hb | hb
        · rw [← hb] at ha; exact congrArg Prod.fst ha
        · exact absurd (List.mem_map.mpr ⟨(b, k), hb, by rw [← ha]⟩) hn.1
        · exact absurd (List.mem_map.mpr ⟨(a, k), ha, by rw [← hb]⟩) hn.1
        · exact ih a b hn.2 ha hb
    have kbOnce : (K.map (·.2)).Nodup := by
      cases hk : db.kb with
      | none => rw [h.noKb hk]; simp
      | some g => exact (h.kb g hk).once
    rcases List.mem_append.mp hw with hw | hw <;> rcases List.mem_append.mp hw' with hw' | hw' <;>
      obtain ⟨⟨a, ka⟩, ha, ea⟩ := List.mem_map.mp hw <;> obtain ⟨⟨b, kb⟩, hb, eb⟩ := List.mem_map.mp hw' <;>
      injection ea with ea1 ea2 <;> injection eb with eb1 eb2 <;> simp only at ea2 eb2 <;> subst ea2 <;> subst eb2
    · rw [← ea1, ← eb1, uniq T a b h.own.once ha hb]
    · exact absurd (List.mem_map.mpr ⟨(b, kb), hb, rfl⟩) (h.apart (a, kb) ha)
    · exact absurd (List.mem_map.mpr ⟨(a, kb), ha, rfl⟩) (h.apart (b, kb) hb)
    · rw [← ea1, ← eb1, uniq K a b kbOnce ha hb]

/-- a new database -/
theorem empty_inv (c : Prop) (n : Nat) : StrInv c ⟨Seg.empty n, none⟩ [] := by
  constructor <;> simp [Seg.empty, Linked]

theorem fresh_inv (c : Prop) (n : Nat) : KInv c ⟨Seg.empty n, none⟩ [] [] :=
  ⟨empty_inv c n, fun _ => rfl, by simp, by simp⟩

/-- a database is attached as knowledge base -/
theorem attach_inv {c : Prop} {db : Db} {T : List (Nat × Key)} (hk : db.kb = none) (h : StrInv c db T) (m : Nat) :
    KInv c (attach db.seg m) [] T := by
  obtain ⟨seg, kb⟩ := db
  simp only at hk
  subst hk
  refine ⟨?_, by simp [attach], ?_, by simp⟩
  · constructor <;> simp [attach, Seg.empty, Linked]
  · intro g hg
    have : seg = g := by simpa [attach] using hg
    subst this; exact h

/-- both phases -/
theorem run_given {al al' : Al} {c : Prop} (hc : c → ∀ db, al.cell db = true) (hc' : c → ∀ db, al'.cell db = true) (n m : Nat)
    {ks ks' : List Key} (hk : ∀ k ∈ ks ++ ks', NameOk k) :
    ∃ db rs db' rs' T T', encodeAll al ⟨Seg.empty n, none⟩ ks = some (db, rs) ∧
      encodeAll al' (attach db.seg m) ks' = some (db', rs') ∧ rs.length = ks.length ∧ rs'.length = ks'.length ∧
      KInv c db T [] ∧ KInv c db' T' T ∧ db.kb = none ∧ db'.kb = some db.seg ∧
      (∀ k w, (k, some w) ∈ ks.zip rs → Given db T [] k w) ∧
      ∀ k w, (k, some w) ∈ (ks ++ ks').zip (rs ++ rs') → Given db' T' T k w := by
  obtain ⟨db, T, rs, a1, a2, a3, a4, a5⟩ := encodeAll_given (al := al) hc (ks := ks) (fresh_inv c n) (fun k h => hk k (by simp [h]))
  have hkb : db.kb = none := a3.kb
  rw [List.append_nil] at a2 a5
  obtain ⟨db', T', rs', b1, b2, b3, b4, b5⟩ :=
    encodeAll_given (al := al') hc' (ks := ks') (attach_inv hkb a2.own m) (fun k h => hk k (by simp [h]))
  rw [List.append_nil] at b2 b5
  have hkb' : db'.kb = some db.seg := b3.kb
  refine ⟨db, rs, db', rs', T, T', a1, b1, a4, b4, a2, b2, hkb, hkb', a5, ?_⟩
  intro k w hw
  rw [List.zip_append a4.symm] at hw
  rcases List.mem_append.mp hw with hw | hw
  · obtain ⟨g1, g2, g3⟩ := a5 k w hw
    have hwl : (w, k) ∈ words db T [] → (w, k) ∈ words db' T' T := by
      intro hm
      rcases List.mem_append.mp hm with hm | hm
      · obtain ⟨q, hq, he⟩ := List.mem_map.mp hm
        refine List.mem_append.mpr (.inr (List.mem_map.mpr ⟨q, hq, ?_⟩))
        rw [← he]; simp [Db.ref, hkb]
      · simp at hm
    refine ⟨?_, fun hh => hwl (g2 hh), g3⟩
    by_cases hh : KeptOnce k
    · exact words_decode b2 (hwl (g2 hh))
    · have hs := g3 hh
      unfold Db.decode Db.segOf at g1 ⊢
      simp only [hkb, hkb'] at g1 ⊢
      by_cases hl : w.loc
      · simp [hl] at g1
      · simp only [hl, Bool.false_eq_true, if_false, hs, if_true] at g1 ⊢
        simpa only [Db.base, hkb, hkb'] using g1
  · exact b5 k w hw

/-! ### The property -/

/-- **C51.** Storing names in a database, attaching it as knowledge base to another and storing names
there is always defined, and the words got are equal for equal names and different for different
names, except for short strings. -/
theorem C51_same_word_iff_same_name (al al' : Al) (n m : Nat) (ks ks' : List Key) (hk : ∀ k ∈ ks ++ ks', NameOk k) :
    ∃ db rs db' rs', encodeAll al ⟨Seg.empty n, none⟩ ks = some (db, rs) ∧
      encodeAll al' (attach db.seg m) ks' = some (db', rs') ∧ rs.length = ks.length ∧ rs'.length = ks'.length ∧
      ∀ k w k' w', (k, some w) ∈ (ks ++ ks').zip (rs ++ rs') → (k', some w') ∈ (ks ++ ks').zip (rs ++ rs') →
        KeptOnce k → KeptOnce k' → (w = w' ↔ k = k') := by
  obtain ⟨db, rs, db', rs', T, T', h1, h2, h3, h4, h5, h6, h7, h8, h9, h10⟩ :=
    run_given (al := al) (al' := al') (c := False) (by simp) (by simp) n m hk
  refine ⟨db, rs, db', rs', h1, h2, h3, h4, ?_⟩
  intro k w k' w' hw hw' hk hk'
  exact words_iff h6 ((h10 k w hw).2.1 hk) ((h10 k' w' hw').2.1 hk')

/-- **C51.** Every word, also of a short string, decodes at the end to what was stored. -/
theorem C51_word_decodes (al al' : Al) (n m : Nat) (ks ks' : List Key) (hk : ∀ k ∈ ks ++ ks', NameOk k) {db db' : Db}
    {rs rs' : List (Option Ref)} (h : encodeAll al ⟨Seg.empty n, none⟩ ks = some (db, rs))
    (h' : encodeAll al' (attach db.seg m) ks' = some (db', rs')) :
    ∀ k w, (k, some w) ∈ (ks ++ ks').zip (rs ++ rs') → db'.decode w = some k := by
  obtain ⟨d, s, d', s', T, T', h1, h2, h3, h4, h5, h6, h7, h8, h9, h10⟩ :=
    run_given (al := al) (al' := al') (c := False) (by simp) (by simp) n m hk
  rw [h] at h1; injection h1 with h1; injection h1 with e1 e2; subst e1; subst e2
  rw [h'] at h2; injection h2 with h2; injection h2 with e1 e2; subst e1; subst e2
  exact fun k w hw => (h10 k w hw).1

/-- **C51.** Storing a name again changes nothing and needs no memory. -/
theorem C51_again (al al' al2 : Al) (n m : Nat) (ks ks' : List Key) (hk : ∀ k ∈ ks ++ ks', NameOk k) {db db' : Db}
    {rs rs' : List (Option Ref)} (h : encodeAll al ⟨Seg.empty n, none⟩ ks = some (db, rs))
    (h' : encodeAll al' (attach db.seg m) ks' = some (db', rs')) :
    ∀ k w, (k, some w) ∈ (ks ++ ks').zip (rs ++ rs') → KeptOnce k → encode al2 db' k = some (db', some w) := by
  obtain ⟨d, s, d', s', T, T', h1, h2, h3, h4, h5, h6, h7, h8, h9, h10⟩ :=
    run_given (al := al) (al' := al') (c := False) (by simp) (by simp) n m hk
  rw [h] at h1; injection h1 with h1; injection h1 with e1 e2; subst e1; subst e2
  rw [h'] at h2; injection h2 with h2; injection h2 with e1 e2; subst e1; subst e2
  intro k w hw hko
  have hm := (h10 k w hw).2.1 hko
  have hns : ¬ isShort k = true := fun hh => (isShort_iff k).mp hh hko
  unfold encode
  rw [if_neg hns]
  unfold findCreate
  rcases findKb_eq h6 k with ⟨o, q1, q2⟩ | ⟨q1, q2⟩
  · simp only [q2]
    have : (⟨false, false, o⟩ : Ref) = w :=
      (words_iff h6 (List.mem_append.mpr (.inr (List.mem_map.mpr ⟨(o, k), q1, rfl⟩))) hm).mpr rfl
    rw [this]
  · rw [q2]
    rcases find_eq h6.own k with ⟨o, q3, q4⟩ | ⟨q3, q4⟩
    · simp only [q4]
      have : db'.ref false o = w :=
        (words_iff h6 (List.mem_append.mpr (.inl (List.mem_map.mpr ⟨(o, k), q3, rfl⟩))) hm).mpr rfl
      rw [this]
    · rcases List.mem_append.mp hm with hm | hm
      · obtain ⟨p, hp, he⟩ := List.mem_map.mp hm
        injection he with _ he
        exact absurd (List.mem_map.mpr ⟨p, hp, he⟩) q3
      · obtain ⟨p, hp, he⟩ := List.mem_map.mp hm
        injection he with _ he
        exact absurd (List.mem_map.mpr ⟨p, hp, he⟩) q1

/-- **C51.** The list of uris: in a database, every uri stored is in its list, once, if there always
is memory for list cells; with a knowledge base it is in one of the two lists. -/
theorem C51_uri_list (al al' : Al) (hc : ∀ db, al.cell db = true) (hc' : ∀ db, al'.cell db = true) (n m : Nat)
    (ks ks' : List Key) (hk : ∀ k ∈ ks ++ ks', NameOk k) {db db' : Db} {rs rs' : List (Option Ref)}
    (h : encodeAll al ⟨Seg.empty n, none⟩ ks = some (db, rs))
    (h' : encodeAll al' (attach db.seg m) ks' = some (db', rs')) :
    (db.seg.uris ++ db'.seg.uris).Nodup ∧
    (∀ k w, (k, some w) ∈ ks.zip rs → k.ty = .uri → w ∈ db.seg.uris) ∧
    (∀ k w, (k, some w) ∈ (ks ++ ks').zip (rs ++ rs') → k.ty = .uri → w ∈ db.seg.uris ++ db'.seg.uris) ∧
    ∀ w ∈ db.seg.uris ++ db'.seg.uris, ∃ k, k.ty = .uri ∧ db'.decode w = some k := by
  obtain ⟨d, s, d', s', T, T', h1, h2, h3, h4, h5, h6, h7, h8, h9, h10⟩ :=
    run_given (al := al) (al' := al') (c := True) (fun _ => hc) (fun _ => hc') n m hk
  rw [h] at h1; injection h1 with h1; injection h1 with e1 e2; subst e1; subst e2
  rw [h'] at h2; injection h2 with h2; injection h2 with e1 e2; subst e1; subst e2
  have loc : ∀ k w, (w, k) ∈ words db T [] → k.ty = .uri → w ∈ db.seg.uris := by
    intro k w hm hu
    rcases List.mem_append.mp hm with hm | hm
    · obtain ⟨p, hp, he⟩ := List.mem_map.mp hm
      injection he with e1 e2
      rw [← e1]
      exact h5.own.uriAll trivial p hp (by rw [e2]; exact hu)
    · simp at hm
  refine ⟨?_, ?_, ?_, ?_⟩
  · rw [List.nodup_append]
    refine ⟨h5.own.uriOnce, h6.own.uriOnce, ?_⟩
    rintro a ha b hb rfl
    obtain ⟨_, _, _, e1⟩ := h5.own.uris a ha
    obtain ⟨_, _, _, e2⟩ := h6.own.uris a hb
    rw [e1] at e2
    simp [Db.ref, h7, h8] at e2
  · intro k w hw hu
    exact loc k w ((h9 k w hw).2.1 (.inl (by rw [hu]; simp))) hu
  · intro k w hw hu
    have hm := (h10 k w hw).2.1 (.inl (by rw [hu]; simp))
    rcases List.mem_append.mp hm with hm | hm
    · obtain ⟨p, hp, he⟩ := List.mem_map.mp hm
      injection he with e1 e2
      rw [← e1]
      exact List.mem_append.mpr (.inr (h6.own.uriAll trivial p hp (by rw [e2]; exact hu)))
    · obtain ⟨p, hp, he⟩ := List.mem_map.mp hm
      injection he with e1 e2
      refine List.mem_append.mpr (.inl (loc k w (List.mem_append.mpr (.inl (List.mem_map.mpr ⟨p, hp, ?_⟩))) hu))
      rw [← e1, ← e2]; simp [Db.ref, h7]
  · intro w hw
    rcases List.mem_append.mp hw with hw | hw
    · obtain ⟨p, hp, hq, e⟩ := h5.own.uris w hw
      refine ⟨p.2, hq, words_decode h6 (List.mem_append.mpr (.inr (List.mem_map.mpr ⟨p, hp, ?_⟩)))⟩
      rw [e]; simp [Db.ref, h7]
    · obtain ⟨p, hp, hq, e⟩ := h6.own.uris w hw
      exact ⟨p.2, hq, words_decode h6 (List.mem_append.mpr (.inl (List.mem_map.mpr ⟨p, hp, by rw [e]⟩)))⟩

/-- **C51.** The numbers of kept strings (LONGSTR_ID_POS) differ within a database. -/
theorem C51_ids_differ (al : Al) (n : Nat) (ks : List Key) (hk : ∀ k ∈ ks, NameOk k) {db : Db} {rs : List (Option Ref)}
    (h : encodeAll al ⟨Seg.empty n, none⟩ ks = some (db, rs)) :
    ∀ k w k' w', (k, some w) ∈ ks.zip rs → (k', some w') ∈ ks.zip rs → KeptOnce k → KeptOnce k' →
      ∃ a b, db.seg.obj w.off = some a ∧ db.seg.obj w'.off = some b ∧ a.id < db.seg.count ∧ (a.id = b.id ↔ k = k') := by
  obtain ⟨d, s, d', s', T, T', h1, h2, h3, h4, h5, h6, h7, h8, h9, h10⟩ :=
    run_given (al := al) (al' := al) (c := False) (by simp) (by simp) n 1 (ks := ks) (ks' := []) (by simpa using hk)
  rw [h] at h1; injection h1 with h1; injection h1 with e1 e2; subst e1; subst e2
  intro k w k' w' hw hw' hko hko'
  have get : ∀ k w, (k, some w) ∈ ks.zip rs → KeptOnce k → (w.off, k) ∈ T := by
    intro k w hw hko
    rcases List.mem_append.mp ((h9 k w hw).2.1 hko) with hm | hm
    · obtain ⟨p, hp, he⟩ := List.mem_map.mp hm
      injection he with e1 e2
      have : (w.off, k) = p := by rw [← e1, ← e2]; rfl
      rw [this]; exact hp
    · simp at hm
  have m := get k w hw hko
  have m' := get k' w' hw' hko'
  obtain ⟨a, ha, _⟩ := h5.own.holds _ m
  obtain ⟨b, hb, _⟩ := h5.own.holds _ m'
  refine ⟨a, b, ha, hb, h5.own.idlt _ m a ha, ?_, ?_⟩
  · intro hid
    have key : ∀ L : List (Nat × Key), L.Pairwise (fun p q => ∀ a b, db.seg.obj p.1 = some a → db.seg.obj q.1 = some b → b.id < a.id) →
        (w.off, k) ∈ L → (w'.off, k') ∈ L → k = k' := by
      intro L
      induction L with
      | nil => intro _ hm; simp at hm
      | cons p L ih =>
        intro hp hm hm'
        rw [List.pairwise_cons] at hp
        rcases List.mem_cons.mp hm with hm | hm <;> rcases List.mem_cons.mp hm' with hm' | hm'
        · rw [← hm'] at hm; exact congrArg Prod.snd hm
        · exact absurd (hp.1 _ hm' a b (by rw [← hm]; exact ha) hb) (by omega)
        · exact absurd (hp.1 _ hm b a (by rw [← hm']; exact hb) ha) (by omega)
        · exact ih hp.2 hm hm'
    exact key T h5.own.ids m m'
  · rintro rfl
    have := (words_iff h5 ((h9 k w hw).2.1 hko) ((h9 k w' hw').2.1 hko')).mpr rfl
    subst this
    rw [ha] at hb; injection hb with hb; rw [hb]

/-- **C51.** A short string gets a new word every time: its word led nowhere before. -/
theorem C51_short_is_new (al : Al) (n : Nat) (ks : List Key) (k : Key) (hk : ∀ k ∈ ks, NameOk k) (hs : ¬ KeptOnce k)
    {db db' : Db} {rs : List (Option Ref)} {w : Ref} (h : encodeAll al ⟨Seg.empty n, none⟩ ks = some (db, rs))
    (h' : encode al db k = some (db', some w)) : db.decode w = none ∧ some w ∉ rs := by
  obtain ⟨d, T, s, h1, h2, h3, h4, h5⟩ := encodeAll_given (al := al) (c := False) (by simp) (fresh_inv False n) hk
  rw [h] at h1; injection h1 with h1; injection h1 with e1 e2; subst e1; subst e2
  obtain ⟨d', r, q1, q2, q3, q4, q5⟩ := short_stored (al := al) h2 k.data
  unfold encode at h'
  rw [if_pos ((isShort_iff k).mpr hs), q1] at h'
  injection h' with h'; injection h' with e1 e2
  have hn := (q5 w e2).2.1
  refine ⟨hn, ?_⟩
  intro hm
  obtain ⟨i, hi, he⟩ := List.getElem_of_mem hm
  have hz : (ks[i]'(by omega), some w) ∈ ks.zip rs := by
    refine List.mem_iff_getElem.mpr ⟨i, by simp; omega, ?_⟩
    simp [he]
  have := (h5 _ w hz).1
  rw [hn] at this
  exact absurd this (by simp)

/-! ### Witnesses -/

/-- allocators of a thousand places -/
def testAl (c : Bool) : Al where
  long db := (List.range 1000).find? fun o => (db.seg.obj o).isNone
  short db := (List.range 1000).find? fun o => (db.seg.short o).isNone
  cell _ := c
  long_new db o h := by simpa using List.find?_some h
  short_new db o h := by simpa using List.find?_some h

/-- the bytes of a C string -/
def cbytes (s : String) : List Byte := s.toUTF8.toList.map fun b => BitVec.ofNat 8 b.toNat

/-- a uri with or without prefix -/
def uriKey (s : String) (pre : Option String) : Key := ⟨.uri, cbytes s ++ [0], pre.map cbytes⟩

/-- a string -/
def strKey (s : String) : Key := ⟨.str, cbytes s ++ [0], none⟩

/-- a prefix of 33 characters -/
def longPrefix : String := "http://example.org/ontology/base#"

/-- names of all kinds: the same uri with and without prefix, a string and an xml literal with the
same bytes, the empty prefix, a long prefix -/
def someNames : List Key :=
  [uriKey "father" none, uriKey "father" (some "#"), uriKey "father" (some ""), uriKey "n3021" (some longPrefix),
    strKey longPrefix, ⟨.xml, cbytes longPrefix ++ [0], none⟩, ⟨.blob, [1, 0, 2], none⟩, strKey "father", uriKey "father" none]

/-- names for the second database -/
def moreNames : List Key := [uriKey "father" (some "#"), uriKey "mother" none, uriKey "mother" (some longPrefix), strKey "father"]

theorem someNames_ok : ∀ k ∈ someNames ++ moreNames, NameOk k := by
  have : ∀ k ∈ someNames ++ moreNames, (0 : Byte) ∉ k.extra.getD [] := by decide +kernel
  intro k hk e he
  have := this k hk
  rwa [he] at this

/-- the hypotheses of C51 are met, with words as expected: the first and the last name of the first
database have one word, "father" with prefix is found in the knowledge base -/
example : (∀ k ∈ someNames ++ moreNames, NameOk k) ∧ KeptOnce (uriKey "father" none) ∧ ¬ KeptOnce (strKey "father") ∧
    ((encodeAll (testAl true) ⟨Seg.empty 10000, none⟩ someNames).any fun (db, rs) =>
      (encodeAll (testAl true) (attach db.seg 7) moreNames).any fun (db', rs') =>
        decide (rs = [some ⟨false, false, 0⟩, some ⟨false, false, 1⟩, some ⟨false, false, 2⟩, some ⟨false, false, 3⟩,
          some ⟨false, false, 5⟩, some ⟨false, false, 6⟩, some ⟨false, false, 7⟩, some ⟨false, true, 2⟩, some ⟨false, false, 0⟩]) &&
        decide (rs' = [some ⟨false, false, 1⟩, some ⟨true, false, 0⟩, some ⟨true, false, 1⟩, some ⟨true, true, 0⟩]) &&
        decide (db.seg.uris.length = 4) && decide (db'.seg.uris.length = 2)) = true := by
  refine ⟨someNames_ok, ?_, ?_, by decide +kernel⟩
  · unfold KeptOnce; decide +kernel
  · unfold KeptOnce; decide +kernel

/-- **C51, what is not so.** The language, type or prefix itself is not always stored once: when it
is long and falls in the same place of the hash array as the name, it gets lost from the chain,
because the start of the chain was read before it was stored.  When the same string is stored later it is a second
object. -/
theorem C51_prefix_lost : ∃ db rs a b c, encodeAll (testAl true) ⟨Seg.empty 10000, none⟩
      [uriKey "n3021" (some longPrefix), strKey longPrefix] = some (db, rs) ∧
    rs = [some ⟨false, false, 0⟩, some ⟨false, false, 2⟩] ∧
    db.seg.obj 0 = some a ∧ a.extra = some ⟨false, false, 1⟩ ∧ db.seg.obj 1 = some b ∧ db.seg.obj 2 = some c ∧
    b.ty = c.ty ∧ b.data = c.data ∧ b.extra = none ∧ c.extra = none := by
  have h : ((encodeAll (testAl true) ⟨Seg.empty 10000, none⟩ [uriKey "n3021" (some longPrefix), strKey longPrefix]).any
      fun (db, rs) => decide (rs = [some ⟨false, false, 0⟩, some ⟨false, false, 2⟩]) &&
        ((db.seg.obj 0).any fun a => decide (a.extra = some ⟨false, false, 1⟩)) &&
        ((db.seg.obj 1).any fun b => (db.seg.obj 2).any fun c => decide (b.ty = c.ty ∧ b.data = c.data ∧ b.extra = none ∧ c.extra = none))) = true := by
    decide +kernel
  cases h1 : encodeAll (testAl true) ⟨Seg.empty 10000, none⟩ [uriKey "n3021" (some longPrefix), strKey longPrefix] with
  | none => rw [h1] at h; exact absurd h (by simp)
  | some x =>
  obtain ⟨db, rs⟩ := x
  rw [h1] at h
  simp only [Option.any_some, Bool.and_eq_true, decide_eq_true_eq] at h
  obtain ⟨⟨q1, q2⟩, q3⟩ := h
  cases ha : db.seg.obj 0 with
  | none => simp [ha] at q2
  | some a =>
    cases hb : db.seg.obj 1 with
    | none => simp [hb] at q3
    | some b =>
      cases hc : db.seg.obj 2 with
      | none => simp [hb, hc] at q3
      | some c =>
        simp only [ha, Option.any_some, decide_eq_true_eq] at q2
        simp only [hb, hc, Option.any_some, decide_eq_true_eq] at q3
        exact ⟨db, rs, a, b, c, rfl, q1, ha, q2, hb, hc, q3.1, q3.2.1, q3.2.2.1, q3.2.2.2⟩

/-- **C51, what is not so.** If there is no memory for the list cell of a uri, storing the uri fails,
yet the next time it succeeds, and the uri is never in the list. -/
theorem C51_uri_unlisted : ∃ db, encodeAll (testAl false) ⟨Seg.empty 10000, none⟩ [uriKey "father" none, uriKey "father" none] =
    some (db, [none, some ⟨false, false, 0⟩]) ∧ db.seg.uris = [] := by
  have h : ((encodeAll (testAl false) ⟨Seg.empty 10000, none⟩ [uriKey "father" none, uriKey "father" none]).any
      fun (db, rs) => decide (rs = [none, some ⟨false, false, 0⟩] ∧ db.seg.uris = [])) = true := by decide +kernel
  cases hx : encodeAll (testAl false) ⟨Seg.empty 10000, none⟩ [uriKey "father" none, uriKey "father" none] with
  | none => rw [hx] at h; exact absurd h (by simp)
  | some x =>
    rw [hx] at h
    obtain ⟨db, rs⟩ := x
    simp only [Option.any_some, decide_eq_true_eq] at h
    exact ⟨db, by rw [h.1], h.2⟩

/-- **C51, what is not so.** A name of the knowledge base and a name of the database it is attached to can
have the same number, with which the tables of the axiom selection are indexed
(Reasoner/analyze.c:960-976). -/
theorem C51_ids_clash : ∃ db db' a b, encodeAll (testAl true) ⟨Seg.empty 10000, none⟩ [uriKey "father" none] =
      some (db, [some ⟨false, false, 0⟩]) ∧
    encodeAll (testAl true) (attach db.seg 10000) [uriKey "mother" none] = some (db', [some ⟨true, false, 0⟩]) ∧
    db.seg.obj 0 = some a ∧ db'.seg.obj 0 = some b ∧ a.data ≠ b.data ∧ a.id = b.id := by
  have h : ((encodeAll (testAl true) ⟨Seg.empty 10000, none⟩ [uriKey "father" none]).any fun (db, rs) =>
      decide (rs = [some ⟨false, false, 0⟩]) &&
      (encodeAll (testAl true) (attach db.seg 10000) [uriKey "mother" none]).any fun (db', rs') =>
        decide (rs' = [some ⟨true, false, 0⟩]) && ((db.seg.obj 0).any fun a => (db'.seg.obj 0).any fun b =>
          decide (a.data ≠ b.data ∧ a.id = b.id))) = true := by decide +kernel
  cases hx : encodeAll (testAl true) ⟨Seg.empty 10000, none⟩ [uriKey "father" none] with
  | none => rw [hx] at h; exact absurd h (by simp)
  | some x =>
    obtain ⟨db, rs⟩ := x
    rw [hx] at h
    simp only [Option.any_some, Bool.and_eq_true, decide_eq_true_eq] at h
    obtain ⟨h1, h⟩ := h
    cases hy : encodeAll (testAl true) (attach db.seg 10000) [uriKey "mother" none] with
    | none => rw [hy] at h; exact absurd h (by simp)
    | some y =>
      obtain ⟨db', rs'⟩ := y
      rw [hy] at h
      simp only [Option.any_some, Bool.and_eq_true, decide_eq_true_eq] at h
      obtain ⟨h2, h⟩ := h
      cases ha : db.seg.obj 0 with
      | none => rw [ha] at h; exact absurd h (by simp)
      | some a =>
        cases hb : db'.seg.obj 0 with
        | none => rw [ha, hb] at h; exact absurd h (by simp)
        | some b =>
          rw [ha, hb] at h
          simp only [Option.any_some, decide_eq_true_eq] at h
          exact ⟨db, db', a, b, by rw [h1], by rw [hy, h2], ha, hb, h.1, h.2⟩

end Gkc.Props
