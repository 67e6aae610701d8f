import Verif.AllocInv
/-
wg_alloc_gints, wg_free_object and the creation of an area keep the invariant.
-/
namespace Gkc.Alloc

/-- what is known after a successful allocation -/
structure Got2 (s : St) (B : Map) (w o : Nat) (s' : St) (B' : Map) (L' : Nat → List Nat) : Prop where
  inv : Inv s' B' L'
  noL : NoL B'
  keeps : Keeps B s s'
  fresh : ∀ n, B o ≠ some (n, .used)
  head : s'.mem o = w
  used : ∀ a n, B' a = some (n, .used) ↔ B a = some (n, .used) ∨ (a = o ∧ n = usedBytes w)
  size : s'.size = s.size
  len : s.subs.length ≤ s'.subs.length

/-- what is known after another operation that leaves the used blocks alone -/
structure Rest (s : St) (B : Map) (s' : St) (B' : Map) (L' : Nat → List Nat) : Prop where
  inv : Inv s' B' L'
  noL : NoL B'
  keeps : Keeps B s s'
  used : ∀ a n, B' a = some (n, .used) ↔ B a = some (n, .used)
  size : s'.size = s.size
  len : s.subs.length ≤ s'.subs.length

theorem Inv.allocF {B L} (hb : Nat) {w} (hw : w % 8 = 0) (hlt : w < 2 ^ 40) : ∀ k {s}, Inv s B L → NoL B →
    65 ≤ k + min s.subs.length 64 →
    (∃ o s' B' L', Alloc.allocF hb k s w = .ok o s' ∧ Got2 s B w o s' B' L') ∨
    (∃ s' B' L', Alloc.allocF hb k s w = .fail s' ∧ Rest s B s' B' L') := by
  intro k
  induction k generalizing B L with
  | zero => intro s _ _ h; omega
  | succ k ih =>
    intro s I hn hk
    unfold Alloc.allocF
    rcases I.allocHere hn hb hw hlt with h | ⟨o, s', h, B', L', G⟩
    · rw [h]
      simp only []
      rcases I.extend hn hb (mb := usedBytes w) with h | ⟨s1, B1, L1, h, E, hl⟩
      · rw [h]
        exact .inr ⟨s, B, L, rfl, I, hn, Keeps.refl _ _, fun _ _ => Iff.rfl, rfl, Nat.le_refl _⟩
      · rw [h]
        simp only []
        have hu : UsedIn B B1 := fun a n h => (E.used a n).2 h
        rcases ih E.inv E.noL (by have := E.len; omega) with ⟨o, s', B', L', e, G⟩ | ⟨s', B', L', e, G⟩
        · refine .inl ⟨o, s', B', L', e, G.inv, G.noL, E.keeps.trans G.keeps hu, fun n h => G.fresh n (hu _ _ h), G.head,
            fun a n => ?_, G.size.trans E.size, by have := E.len; have := G.len; omega⟩
          rw [G.used, E.used]
        · exact .inr ⟨s', B', L', e, G.inv, G.noL, E.keeps.trans G.keeps hu, fun a n => (G.used a n).trans (E.used a n),
            G.size.trans E.size, by have := E.len; have := G.len; omega⟩
    · rw [h]
      exact .inl ⟨o, s', B', L', rfl, G.inv, G.noL, G.keeps, G.fresh, G.head, G.used, G.size, by rw [G.subs]; exact Nat.le_refl _⟩

theorem Inv.alloc_avail {s B L} (I : Inv s B L) (hn : NoL B) (hb : Nat) {w k} (hw : w % 8 = 0) (hlt : w < 2 ^ 40)
    (ha : Avail s (usedBytes w)) : ∃ o s', Alloc.allocF hb (k + 1) s w = .ok o s' ∧ s'.free = s.free ∧ s'.subs = s.subs := by
  unfold Alloc.allocF
  rcases I.allocHere hn hb hw hlt with h | ⟨o, s', h, B', L', G⟩
  · exact absurd h (ha.allocHere hb)
  · rw [h]; exact ⟨o, s', rfl, G.free, G.subs⟩

/-! ### wg_free_object -/

/-- a block of this size is at hand -/
def Has (s : St) (n : Nat) : Prop :=
  (s.dv ≠ 0 ∧ s.dvsz = n) ∨ ∃ i, idx n = some i ∧ s.bkt i ≠ 0 ∧ pure (s.mem (s.bkt i)) = n

theorem Has.avail {s : St} {n u : Nat} (h : Has s n) (hu : n = u ∨ u + 32 ≤ n) : Avail s u := by
  rcases h with ⟨h0, rfl⟩ | ⟨i, h1, h2, h3⟩
  · exact .inl ⟨h0, hu⟩
  · exact .inr ⟨n, i, h1, h2, h3, hu⟩

theorem push_bkt (hb : Nat) (s : St) (o n i : Nat) : (push hb s o n i).bkt i = o := by
  unfold push; exact upd_same _ _ _

theorem Inv.freeStore {s B L} (I : Inv s B L) (hb : Nat) {o n} (ho : B o = some (n, .limbo))
    (hn : ∀ a m, a ≠ o → B a ≠ some (m, .limbo)) :
    ∃ s' B' L', Alloc.freeStore hb s o n = .ok s' ∧ Rest s B s' B' L' ∧ Has s' n ∧ s'.free = s.free ∧ s'.subs = s.subs := by
  have hal := I.tile.al ho
  have hou : ∀ m, B o ≠ some (m, .used) := by intro m h; rw [ho] at h; cases h
  unfold Alloc.freeStore
  by_cases hbig : n > s.dvsz
  · rw [if_pos hbig]
    simp only []
    by_cases hd : s.dv = 0
    · obtain ⟨I1, k1⟩ := I.setDv ho hd
      obtain ⟨m, k, hx⟩ := I1.tile.nxt (mset_same B o (some (n, .dv))) (by decide)
      obtain ⟨I2, k2⟩ := I1.markPrevUsed hx
      have hf := markPrevUsed_free (Alloc.setDv s o n) (o + n)
      rw [if_pos hd]
      refine ⟨_, _, _, rfl, ⟨I2, ?_, k1.trans k2 ((UsedIn.refl B).mset hou), ?_, hf.2.1, by rw [hf.2.2.1]; exact Nat.le_refl _⟩, .inl ⟨?_, ?_⟩, hf.1, hf.2.2.1⟩
      · intro a m h
        rcases mset_eq h with ⟨rfl, hh⟩ | ⟨hne, h⟩
        · cases hh
        · exact hn a m hne h
      · intro a m
        constructor
        · intro h
          rcases mset_eq h with ⟨rfl, hh⟩ | ⟨hne, h⟩
          · cases hh
          · exact h
        · exact fun h => (UsedIn.refl B).mset hou _ _ h
      · rw [hf.2.2.2.1]; show o ≠ 0; omega
      · rw [hf.2.2.2.2]; rfl
    · rw [if_neg hd]
      have hdv := I.dv1 hd
      have hdo : s.dv ≠ o := by intro h; rw [h, ho] at hdv; cases hdv
      have hdu : ∀ m, B s.dv ≠ some (m, .used) := by intro m h; rw [hdv] at h; cases h
      have I0 := I.undv hd
      have ho' : mset B s.dv (some (s.dvsz, .limbo)) o = some (n, .limbo) := by rw [mset_ne _ _ hdo.symm]; exact ho
      obtain ⟨I1, k1⟩ := I0.setDv ho' rfl
      obtain ⟨m, k, hx⟩ := I1.tile.nxt (mset_same _ o (some (n, .dv))) (by decide)
      obtain ⟨I2, k2⟩ := I1.markPrevUsed hx
      have hdl : mset (mset B s.dv (some (s.dvsz, .limbo))) o (some (n, .dv)) s.dv = some (s.dvsz, .limbo) := by
        rw [mset_ne _ _ hdo, mset_same]
      obtain ⟨m', k', hx'⟩ := I2.tile.nxt hdl (by decide)
      obtain ⟨I3, k3⟩ := I2.markPrevFree hx'
      obtain ⟨i, hi, _⟩ := I.idx_some hdv
      rw [hi]
      obtain ⟨I4, k4⟩ := I3.push hb hdl hi
      have h2 := markPrevUsed_free (Alloc.setDv s o n) (o + n)
      have h3 := markPrevFree_free (Alloc.markPrevUsed (Alloc.setDv s o n) (o + n)) (s.dv + s.dvsz)
      have h4 := push_free hb (Alloc.markPrevFree (Alloc.markPrevUsed (Alloc.setDv s o n) (o + n)) (s.dv + s.dvsz)) s.dv s.dvsz i
      have u1 := (UsedIn.refl B).mset (v := some (s.dvsz, .limbo)) hdu
      have u2 := u1.mset (v := some (n, .dv)) hou
      have u3 := u2.mset (v := some (s.dvsz, .free)) hdu
      refine ⟨_, _, _, rfl, ⟨I4, ?_, (((Keeps.trans (s' := { s with dv := 0, dvsz := 0 }) (Keeps.refl B s) k1 u1).trans k2 u2).trans
        k3 u2).trans k4 u2, ?_, h4.2.1.trans (h3.2.1.trans h2.2.1),
        by rw [h4.2.2.1, h3.2.2.1, h2.2.2.1]; exact Nat.le_refl _⟩, .inl ⟨?_, ?_⟩, h4.1.trans (h3.1.trans h2.1),
        h4.2.2.1.trans (h3.2.2.1.trans h2.2.2.1)⟩
      · intro a m h
        rcases mset_eq h with ⟨rfl, hh⟩ | ⟨hne, h⟩
        · cases hh
        · rcases mset_eq h with ⟨rfl, hh⟩ | ⟨hne', h⟩
          · cases hh
          · rw [mset_ne _ _ hne] at h
            exact hn a m hne' h
      · intro a m
        constructor
        · intro h
          rcases mset_eq h with ⟨rfl, hh⟩ | ⟨hne, h⟩
          · cases hh
          · rcases mset_eq h with ⟨rfl, hh⟩ | ⟨hne', h⟩
            · cases hh
            · rw [mset_ne _ _ hne] at h; exact h
        · exact fun h => u3 _ _ h
      · rw [h4.2.2.2.1, h3.2.2.2.1, h2.2.2.2.1]; show o ≠ 0; omega
      · rw [h4.2.2.2.2, h3.2.2.2.2, h2.2.2.2.2]; rfl
  · rw [if_neg hbig]
    obtain ⟨i, hi, _⟩ := I.idx_some ho
    rw [hi]
    obtain ⟨I1, k1⟩ := I.push hb ho hi
    have hf := push_free hb s o n i
    refine ⟨_, _, _, rfl, ⟨I1, ?_, k1, ?_, hf.2.1, by rw [hf.2.2.1]; exact Nat.le_refl _⟩, .inr ⟨i, hi, ?_, ?_⟩, hf.1, hf.2.2.1⟩
    · intro a m h
      rcases mset_eq h with ⟨rfl, hh⟩ | ⟨hne, h⟩
      · cases hh
      · exact hn a m hne h
    · intro a m
      constructor
      · intro h
        rcases mset_eq h with ⟨rfl, hh⟩ | ⟨hne, h⟩
        · cases hh
        · exact h
      · exact fun h => (UsedIn.refl B).mset hou _ _ h
    · rw [push_bkt]; omega
    · rw [push_bkt, (I1.free (mset_same _ _ _)).1]; exact pure_add hal.2.1 (by omega)

/-- what is known after an object was freed -/
structure Freed (s : St) (B : Map) (o n : Nat) (s' : St) (B' : Map) (L' : Nat → List Nat) : Prop where
  inv : Inv s' B' L'
  noL : NoL B'
  keeps : Keeps (mset B o (some (n, .limbo))) s s'
  used : ∀ a m, B' a = some (m, .used) ↔ a ≠ o ∧ B a = some (m, .used)
  size : s'.size = s.size
  avail : Avail s' n
  free : s'.free = s.free
  subs : s'.subs = s.subs

theorem noL_limbo {B : Map} (hn : NoL B) {o n : Nat} : ∀ a m, a ≠ o → mset B o (some (n, .limbo)) a ≠ some (m, .limbo) := by
  intro a m ha
  rw [mset_ne _ _ ha]; exact hn a m

theorem used_limbo {B : Map} {o n : Nat} (a m : Nat) :
    mset B o (some (n, .limbo)) a = some (m, .used) ↔ a ≠ o ∧ B a = some (m, .used) := by
  constructor
  · intro h
    rcases mset_eq h with ⟨rfl, hh⟩ | ⟨hne, h⟩
    · cases hh
    · exact ⟨hne, h⟩
  · rintro ⟨h, h'⟩; rw [mset_ne _ _ h]; exact h'

theorem Inv.freeNext {s B L} (I : Inv s B L) (hn : NoL B) (hb : Nat) {o n} (ho : B o = some (n, .used)) :
    ∃ s' B' L', Alloc.freeNext hb s o n = .ok s' ∧ Freed s B o n s' B' L' := by
  have hal := I.tile.al ho
  obtain ⟨m, k, hx⟩ := I.tile.nxt ho (by decide)
  have hax := I.tile.al hx
  have hxo : o + n ≠ o := by omega
  have I0 := I.toLimbo ho
  have hx0 : mset B o (some (n, .limbo)) (o + n) = some (m, k) := by rw [mset_ne _ _ hxo]; exact hx
  have used_of : ∀ {v} (a p : Nat), mset (mset (mset (mset B o (some (n, .limbo))) (o + n) (some (m, .limbo))) (o + n) none) o v a =
      some (p, .used) → v ≠ some (p, .used) → a ≠ o ∧ B a = some (p, .used) := by
    intro v a p h hv
    rcases mset_eq h with ⟨rfl, hh⟩ | ⟨hne, h⟩
    · exact absurd hh.symm (by simpa using hv.symm)
    · rcases mset_eq h with ⟨rfl, hh⟩ | ⟨hne', h⟩
      · cases hh
      · rw [mset_ne _ _ hne', mset_ne _ _ hne] at h; exact ⟨hne, h⟩
  have merged_noL : ∀ {v : Option (Nat × K)} a p, a ≠ o →
      mset (mset (mset (mset B o (some (n, .limbo))) (o + n) (some (m, .limbo))) (o + n) none) o v a ≠ some (p, .limbo) := by
    intro v a p hne h
    rcases mset_eq h with ⟨rfl, hh⟩ | ⟨hne, h⟩
    · exact hne rfl
    · rcases mset_eq h with ⟨rfl, hh⟩ | ⟨hne', h⟩
      · cases hh
      · rw [mset_ne _ _ hne', mset_ne _ _ hne] at h; exact hn _ _ h
  unfold Alloc.freeNext
  simp only []
  by_cases h1 : s.mem (o + n) % 4 = 1
  · rw [if_pos h1]
    have hk : k = .free := by
      cases k with
      | free => rfl
      | used => have := I.used hx; omega
      | dv => have := I.dv hx; omega
      | edge => have := I.mark hx (.inl rfl); omega
      | fin => have := I.mark hx (.inr rfl); omega
      | limbo => exact absurd hx (hn _ _)
    subst hk
    have hp : pure (s.mem (o + n)) = m := by rw [(I.free hx).1]; exact pure_add hax.2.1 (by omega)
    obtain ⟨_, i, hi, _⟩ := I.free hx
    rw [hp, hi]
    obtain ⟨I1, k1⟩ := I0.unlink hx0 hi
    have I2 := I1.merge (o := o) (n := n) (m := m) (by rw [mset_ne _ _ hxo.symm, mset_same]) (mset_same _ _ _)
    obtain ⟨s', B', L', e, R, H, hf, hs⟩ := I2.freeStore hb (mset_same _ o (some (n + m, .limbo))) merged_noL
    have uf := unlink_free s (o + n) i
    have hxu : ∀ p, mset B o (some (n, .limbo)) (o + n) ≠ some (p, .used) := by intro p h; rw [hx0] at h; cases h
    have hou : ∀ p, mset B o (some (n, .limbo)) o ≠ some (p, .used) := by intro p h; rw [mset_same] at h; cases h
    have u1 := (UsedIn.refl (mset B o (some (n, .limbo)))).mset (v := some (m, .limbo)) hxu
    have u2 := (u1.mset (v := none) hxu).mset (v := some (n + m, .limbo)) hou
    refine ⟨s', B', L', e, R.inv, R.noL, k1.trans R.keeps u2, ?_, R.size.trans uf.2.1, H.avail (.inr (by omega)),
      hf.trans uf.1, hs.trans uf.2.2.1⟩
    intro a p
    rw [R.used]
    constructor
    · exact fun h => used_of a p h (by simp)
    · rintro ⟨hne, h⟩
      exact u2 a p (by rw [mset_ne _ _ hne]; exact h)
  · rw [if_neg h1]
    by_cases h2 : s.mem (o + n) % 4 = 3 ∧ o + n = s.dv
    · rw [if_pos h2]
      have hd : s.dv ≠ 0 := by omega
      have hdv := I.dv1 hd
      rw [← h2.2, hx] at hdv
      cases hdv
      have I1 := I0.undv hd
      rw [← h2.2] at I1
      have I2 := I1.merge (o := o) (n := n) (m := s.dvsz) (by rw [mset_ne _ _ hxo.symm, mset_same]) (mset_same _ _ _)
      obtain ⟨I3, k3⟩ := I2.setDv (mset_same _ o (some (n + s.dvsz, .limbo))) rfl
      have hxu : ∀ p, mset B o (some (n, .limbo)) (o + n) ≠ some (p, .used) := by intro p h; rw [hx0] at h; cases h
      have hou : ∀ p, mset B o (some (n, .limbo)) o ≠ some (p, .used) := by intro p h; rw [mset_same] at h; cases h
      have u1 := (UsedIn.refl (mset B o (some (n, .limbo)))).mset (v := some (s.dvsz, .limbo)) hxu
      have u2 := (u1.mset (v := none) hxu).mset (v := some (n + s.dvsz, .limbo)) hou
      have u3 := u2.mset (v := some (n + s.dvsz, .dv)) hou
      refine ⟨_, _, _, rfl, I3, ?_, Keeps.trans (s' := { s with dv := 0, dvsz := 0 }) (Keeps.refl _ s) k3 u2, ?_, rfl,
        .inl ⟨?_, .inr ?_⟩, rfl, rfl⟩
      · intro a p h
        rcases mset_eq h with ⟨rfl, hh⟩ | ⟨hne, h⟩
        · cases hh
        · exact merged_noL a p hne h
      · intro a p
        constructor
        · intro h
          rcases mset_eq h with ⟨rfl, hh⟩ | ⟨hne, h⟩
          · cases hh
          · exact used_of a p h (by simp)
        · rintro ⟨hne, h⟩
          exact u3 a p (by rw [mset_ne _ _ hne]; exact h)
      · show o ≠ 0; omega
      · show n + 32 ≤ n + s.dvsz; omega
    · rw [if_neg h2]
      obtain ⟨I1, k1⟩ := I0.markPrevFree hx0
      obtain ⟨s', B', L', e, R, H, hf, hs⟩ := I1.freeStore hb (mset_same _ o (some (n, .limbo))) (noL_limbo hn)
      have mf := markPrevFree_free s (o + n)
      exact ⟨s', B', L', e, R.inv, R.noL, k1.trans R.keeps (UsedIn.refl _), fun a p => (R.used a p).trans (used_limbo a p),
        R.size.trans mf.2.1, H.avail (.inl rfl), hf.trans mf.1, hs.trans mf.2.2.1⟩

/-- an object without the mark for a free predecessor is freed -/
theorem Inv.freeObj {s B L} (I : Inv s B L) (hn : NoL B) (hb : Nat) {o n} (ho : B o = some (n, .used))
    (hm : s.mem o % 4 = 0) :
    ∃ s' B' L', Alloc.freeObj hb s o = .ok s' ∧ Freed s B o n s' B' L' := by
  have hal := I.tile.al ho
  obtain ⟨_, hu⟩ := I.used ho
  unfold Alloc.freeObj
  simp only [hu]
  rw [if_neg (by omega), if_neg (by simp only [minObj]; omega), if_neg (by omega)]
  by_cases hd : s.dv + s.dvsz = o
  · rw [if_pos hd]
    have hd0 : s.dv ≠ 0 := by intro h; have := I.dv0 h; omega
    have hdv := I.dv1 hd0
    have hald := I.tile.al hdv
    have hdu : ∀ p, mset B o (some (n, .limbo)) s.dv ≠ some (p, .used) := by
      intro p h; rw [mset_ne _ _ (by omega), hdv] at h; cases h
    have hou : ∀ p, mset B o (some (n, .limbo)) o ≠ some (p, .used) := by intro p h; rw [mset_same] at h; cases h
    have I0 := I.toLimbo ho
    have I1 := I0.undv hd0
    have I2 := I1.merge (o := s.dv) (n := s.dvsz) (m := n) (mset_same _ _ _) (by
      rw [hd, mset_ne _ _ (by omega), mset_same])
    obtain ⟨I3, k3⟩ := I2.setDv (mset_same _ s.dv (some (s.dvsz + n, .limbo))) rfl
    rw [hd] at I3
    have u1 := (UsedIn.refl (mset B o (some (n, .limbo)))).mset (v := some (s.dvsz, .limbo)) hdu
    have u2 := (u1.mset (v := none) hou).mset (v := some (s.dvsz + n, .limbo)) hdu
    have u3 := u2.mset (v := some (s.dvsz + n, .dv)) hdu
    rw [hd] at k3
    rw [Nat.add_comm n s.dvsz]
    refine ⟨_, _, _, rfl, I3, ?_, Keeps.trans (s' := { s with dv := 0, dvsz := 0 }) (Keeps.refl _ s) k3 u2, ?_, rfl,
      .inl ⟨?_, .inr ?_⟩, rfl, rfl⟩
    · intro a p h
      rcases mset_eq h with ⟨rfl, hh⟩ | ⟨hne, h⟩
      · cases hh
      · rw [mset_ne _ _ hne] at h
        rcases mset_eq h with ⟨rfl, hh⟩ | ⟨hne', h⟩
        · cases hh
        · rw [mset_ne _ _ hne, mset_ne _ _ hne'] at h; exact hn _ _ h
    · intro a p
      constructor
      · intro h
        rcases mset_eq h with ⟨rfl, hh⟩ | ⟨hne, h⟩
        · cases hh
        · rw [mset_ne _ _ hne] at h
          rcases mset_eq h with ⟨rfl, hh⟩ | ⟨hne', h⟩
          · cases hh
          · rw [mset_ne _ _ hne, mset_ne _ _ hne'] at h; exact ⟨hne', h⟩
      · rintro ⟨hne, h⟩
        exact u3 a p (by rw [mset_ne _ _ hne]; exact h)
    · show s.dv ≠ 0; exact hd0
    · show n + 32 ≤ s.dvsz + n; omega
  · rw [if_neg hd]
    exact I.freeNext hn hb ho

/-- an object with the mark is not freed, unless the first half of the offsets is a free object -/
theorem Inv.freeObj_marked {s B L} (I : Inv s B L) (hb : Nat) {o n} (ho : B o = some (n, .used))
    (hm : s.mem o % 4 ≠ 0) (hc : 2 * pure (s.mem (o - 8)) ≠ o) :
    Alloc.freeObj hb s o = .err 4 ∨ Alloc.freeObj hb s o = .ub := by
  have hal := I.tile.al ho
  obtain ⟨he, hu⟩ := I.used ho
  unfold Alloc.freeObj
  simp only [hu]
  rw [if_neg (by omega), if_neg (by simp only [minObj]; omega), if_pos (by omega)]
  by_cases hb1 : o < pure (s.mem (o - 8)) ∨ pure (s.mem (o - 8)) % 8 ≠ 0
  · rw [if_pos hb1]; exact .inr rfl
  · rw [if_neg hb1]
    have h1 : pure (o - pure (s.mem (o - 8))) ≠ pure (s.mem (o - 8)) := by
      rw [pure_of (by omega)]; omega
    rw [if_pos (.inr h1)]; exact .inl rfl

/-! ### A new area -/

theorem init_inv {hb : Nat} {mem : Nat → Nat} {fr sz : Nat} {s : St} (h8 : fr % 8 = 0) (h0 : 0 < fr) (hsz : sz ≤ 2 ^ 40)
    (h : init hb mem fr sz = some s) : ∃ B L, Inv s B L ∧ NoL B ∧ (∀ a n, B a ≠ some (n, .used)) ∧ s.subs.length = 1 ∧ s.size = sz := by
  unfold init at h
  cases hc : chunk ⟨mem, fun _ => 0, 0, 0, [], fr, sz⟩ 8192 with
  | none => simp only [hc] at h; cases h
  | some r =>
    obtain ⟨off, s1⟩ := r
    obtain ⟨ho, rfl, hlt⟩ := chunk_some h8 (by omega) hc
    have ho : off = fr := ho
    rw [ho] at hc
    simp only [hc, Option.bind_some, freespace, Bool.not_true, Bool.false_and, Bool.false_eq_true, if_false, Option.map_some,
      Nat.reduceMod, Nat.sub_zero] at h
    have hlt : fr + 8192 < sz := hlt
    have I : Inv ⟨mem, fun _ => 0, 0, 0, [], fr, sz⟩ (fun _ => none) (fun _ => []) := by
      refine ⟨⟨?_, ?_, ?_, ?_, ?_, ?_, ?_⟩, ?_, ?_, ?_, ?_, ?_, ?_, ?_, ?_, ?_, ?_⟩
      · intro _ _ _ h; cases h
      · intro _ _ _ _ _ _ h; cases h
      · intro _ _ _ h; cases h
      · intro _ h; simp at h
      · intro _ _ _ h; cases h
      · simp
      · intro _ _ _ h; cases h
      · intro _ _ h; cases h
      · intro _ _ h; cases h
      · intro _ _ h; cases h
      · intro _ _ _ h; cases h
      · intro h; exact absurd rfl h
      · intro _; rfl
      · intro _; rfl
      · intro _ _ h; cases h
      · intro _; simp
      · exact ⟨by show fr ≤ sz; omega, hsz, h8, h0⟩
    obtain ⟨I1, _⟩ := I.fresh rfl (n := 8192) (k := 0) rfl (by show fr + 8192 ≤ sz; omega)
    have hs : s = fresh ⟨mem, fun _ => 0, 0, 0, [(fr, 8192)], fr + 8192, sz⟩ fr 8192 := by
      rw [← Option.some.inj h]; simp only [fresh]
    subst hs
    refine ⟨_, _, I1, ?_, ?_, rfl, rfl⟩
    · intro a m h
      rcases addSub_eq (by omega) h with ⟨_, hv⟩ | ⟨_, hv⟩ | ⟨_, hv⟩ | h <;> first | cases hv | cases h
    · intro a m h
      rcases addSub_eq (by omega) h with ⟨_, hv⟩ | ⟨_, hv⟩ | ⟨_, hv⟩ | h <;> first | cases hv | cases h

end Gkc.Alloc
