import Verif.AllocLemmas
/-
The operations of the allocator keep the invariant.
-/
namespace Gkc.Alloc

/-- no block is being worked on -/
def NoL (B : Map) : Prop := ∀ a n, B a ≠ some (n, .limbo)

/-- used blocks stay used -/
def UsedIn (B B' : Map) : Prop := ∀ a n, B a = some (n, .used) → B' a = some (n, .used)

theorem UsedIn.refl (B : Map) : UsedIn B B := fun _ _ h => h

theorem UsedIn.mset {B B' : Map} (h : UsedIn B B') {o : Nat} {v} (ho : ∀ n, B o ≠ some (n, .used)) :
    UsedIn B (mset B' o v) := by
  intro a n ha
  have : a ≠ o := by rintro rfl; exact ho n ha
  rw [mset_ne _ _ this]; exact h a n ha

theorem idxF_some (n : Nat) : ∀ k i c, n < c * 2 ^ k → ∃ j, idxF n (k + 1) i c = some j ∧ 256 + i ≤ j ∧ j ≤ 256 + i + k
  | 0, i, c, h => by
    have h : n < c := by simpa using h
    exact ⟨256 + i, by simp [idxF, h], by omega, by omega⟩
  | k + 1, i, c, h => by
    unfold idxF
    by_cases hc : n < c
    · simp only [hc, if_true]; exact ⟨_, rfl, by omega, by omega⟩
    · simp only [hc, if_false]
      obtain ⟨j, h1, h2, h3⟩ := idxF_some n k (i + 1) (c * 2) (by rw [Nat.mul_assoc, ← Nat.pow_succ']; exact h)
      exact ⟨j, h1, by omega, by omega⟩

theorem idxF_mono {n m : Nat} (h : n ≤ m) : ∀ k i c j j', idxF n k i c = some j → idxF m k i c = some j' → j ≤ j'
  | 0, _, _, _, _, h1, _ => by simp [idxF] at h1
  | k + 1, i, c, j, j', h1, h2 => by
    unfold idxF at h1 h2
    by_cases hm : m < c
    · have hn : n < c := by omega
      simp only [hm, hn, if_true] at h1 h2
      cases h1; cases h2; exact Nat.le_refl _
    · simp only [hm, if_false] at h2
      by_cases hn : n < c
      · simp only [hn, if_true] at h1
        cases h1
        have : ∀ k i c j, idxF m k i c = some j → 256 + i ≤ j := by
          intro k
          induction k with
          | zero => intro i c j h; simp [idxF] at h
          | succ k ih =>
            intro i c j h
            unfold idxF at h
            split at h
            · cases h; exact Nat.le_refl _
            · have := ih _ _ _ h; omega
        have := this _ _ _ _ h2
        omega
      · simp only [hn, if_false] at h1
        exact idxF_mono h k _ _ _ _ h1 h2

theorem idx_some {n : Nat} (h : n < 2 ^ 40) : ∃ i, idx n = some i ∧ i < 288 := by
  unfold idx
  by_cases h1 : n < 256
  · simp only [h1, if_true]; exact ⟨n, rfl, by omega⟩
  · simp only [h1, if_false]
    obtain ⟨j, h2, h3, h4⟩ := idxF_some n 31 0 512 (by omega)
    exact ⟨j, h2, by omega⟩

theorem idx_big {n i : Nat} (h : idx n = some i) (hn : 256 ≤ n) : 256 ≤ i ∧ i < 288 := by
  unfold idx at h
  simp only [show ¬ n < 256 by omega, if_false] at h
  have key : ∀ k i c j, idxF n k i c = some j → 256 + i ≤ j ∧ j < 256 + i + k := by
    intro k
    induction k with
    | zero => intro i c j h; simp [idxF] at h
    | succ k ih =>
      intro i c j h
      unfold idxF at h
      split at h
      · cases h; omega
      · have := ih _ _ _ h; omega
  have := key _ _ _ _ h
  omega

theorem idx_small {n i : Nat} (h : idx n = some i) (hn : n < 256) : i = n := by
  unfold idx at h
  simp only [hn, if_true] at h
  cases h; rfl

theorem idx_mono {n m i j : Nat} (h : n ≤ m) (h1 : idx n = some i) (h2 : idx m = some j) : i ≤ j := by
  by_cases hm : m < 256
  · rw [idx_small h1 (by omega), idx_small h2 hm]; exact h
  · by_cases hn : n < 256
    · have := idx_big h2 (by omega)
      rw [idx_small h1 hn]; omega
    · unfold idx at h1 h2
      simp only [hm, hn, if_false] at h1 h2
      exact idxF_mono h _ _ _ _ _ h1 h2

theorem Inv.idx_some {s B L} (I : Inv s B L) {a n k} (h : B a = some (n, k)) : ∃ i, idx n = some i ∧ i < 288 := by
  have h1 := I.tile.al h
  have h2 := I.fsz
  exact Alloc.idx_some (by omega)

/-! ### Composite steps -/

theorem Inv.setDv {s B L} (I : Inv s B L) {o n} (ho : B o = some (n, .limbo)) (h0 : s.dv = 0) :
    Inv (setDv s o n) (mset B o (some (n, .dv))) L ∧ Keeps B s (setDv s o n) := by
  have hal := I.tile.al ho
  have hp : specialHead n = n + 3 := by rw [specialHead, pure_of hal.2.1]
  have I1 : Inv (s.store o (specialHead n)) B L := I.store ho (Nat.le_refl _) (by omega)
  have k1 := I.store_keeps (v := specialHead n) ho (Nat.le_refl _) (by omega)
  have I2 := I1.store (v := 1) ho (w := o + 8) (by omega) (by omega)
  have k2 := I1.store_keeps (v := 1) ho (w := o + 8) (by omega) (by omega)
  refine ⟨I2.toDv ho h0 ?_ ?_, k1.trans k2 (UsedIn.refl B)⟩
  · show upd (upd s.mem o (specialHead n)) (o + 8) 1 o = _
    rw [upd_ne _ _ (by omega), upd_same, hp]
  · show upd (upd s.mem o (specialHead n)) (o + 8) 1 (o + 8) = _
    rw [upd_same]

theorem usedSize_usedHead {w : Nat} (h : w % 8 = 0) : usedSize (usedHead w) = usedBytes w := by
  rw [usedHead, pure_of h]
  unfold usedSize usedBytes
  rw [pure_of h]

theorem usedBytes_eq {w : Nat} (h : w % 8 = 0) : usedBytes w = max 32 w := by
  unfold usedBytes minObj
  simp only [h, ne_eq, not_true_eq_false, if_false]
  split <;> omega

/-- a block becomes used -/
theorem Inv.give {s B L} (I : Inv s B L) {o w} (hw : w % 8 = 0) (ho : B o = some (usedBytes w, .limbo)) :
    Inv (s.store o (usedHead w)) (mset B o (some (usedBytes w, .used))) L ∧ Keeps B s (s.store o (usedHead w)) := by
  have hal := I.tile.al ho
  have I1 := I.store (v := usedHead w) ho (Nat.le_refl _) (by omega)
  have hm : (s.store o (usedHead w)).mem o = usedHead w := upd_same _ _ _
  refine ⟨I1.toUsed ho ?_ ?_, I.store_keeps ho (Nat.le_refl _) (by omega)⟩
  · rw [hm, usedHead, pure_of hw]; omega
  · rw [hm, usedSize_usedHead hw]

/-- what is known after an allocation -/
structure Got (s : St) (B : Map) (w o : Nat) (s' : St) (B' : Map) (L' : Nat → List Nat) : Prop where
  inv : Inv s' B' L'
  noL : NoL B'
  keeps : Keeps B s s'
  fresh : ∀ n, B o ≠ some (n, .used)
  head : s'.mem o = w
  used : ∀ a n, B' a = some (n, .used) ↔ B a = some (n, .used) ∨ (a = o ∧ n = usedBytes w)
  subs : s'.subs = s.subs
  free : s'.free = s.free
  size : s'.size = s.size

theorem store_free (s : St) (a v : Nat) : (s.store a v).free = s.free := rfl
theorem push_free (hb : Nat) (s : St) (o n i : Nat) :
    (push hb s o n i).free = s.free ∧ (push hb s o n i).size = s.size ∧ (push hb s o n i).subs = s.subs ∧
    (push hb s o n i).dv = s.dv ∧ (push hb s o n i).dvsz = s.dvsz := by
  unfold push; by_cases h : s.bkt i = 0 <;> simp [h, St.store]
theorem pop_free (hb : Nat) (s : St) (i : Nat) :
    (pop hb s i).free = s.free ∧ (pop hb s i).size = s.size ∧ (pop hb s i).subs = s.subs ∧
    (pop hb s i).dv = s.dv ∧ (pop hb s i).dvsz = s.dvsz := by
  unfold pop; by_cases h : s.mem (s.bkt i + 8) = 0 <;> simp [h, St.store]
theorem unlink_free (s : St) (o i : Nat) :
    (unlink s o i).free = s.free ∧ (unlink s o i).size = s.size ∧ (unlink s o i).subs = s.subs ∧
    (unlink s o i).dv = s.dv ∧ (unlink s o i).dvsz = s.dvsz := by
  unfold unlink
  by_cases h : s.bkt i = o <;> by_cases h' : s.mem (o + 8) = 0 <;> simp [h, h', St.store]
theorem markPrevUsed_free (s : St) (x : Nat) :
    (markPrevUsed s x).free = s.free ∧ (markPrevUsed s x).size = s.size ∧ (markPrevUsed s x).subs = s.subs ∧
    (markPrevUsed s x).dv = s.dv ∧ (markPrevUsed s x).dvsz = s.dvsz := by
  unfold markPrevUsed; split <;> simp [St.store]
theorem markPrevFree_free (s : St) (x : Nat) :
    (markPrevFree s x).free = s.free ∧ (markPrevFree s x).size = s.size ∧ (markPrevFree s x).subs = s.subs ∧
    (markPrevFree s x).dv = s.dv ∧ (markPrevFree s x).dvsz = s.dvsz := by
  unfold markPrevFree; split <;> simp [St.store]
theorem markPrevUsed_ne (s : St) {x y : Nat} (h : y ≠ x) : (markPrevUsed s x).mem y = s.mem y := by
  unfold markPrevUsed; split
  · exact upd_ne _ _ h
  · rfl
theorem markPrevFree_ne (s : St) {x y : Nat} (h : y ≠ x) : (markPrevFree s x).mem y = s.mem y := by
  unfold markPrevFree; split
  · exact upd_ne _ _ h
  · rfl

/-- the head of a list -/
theorem Inv.headBlock {s B L} (I : Inv s B L) {i} (h0 : s.bkt i ≠ 0) :
    ∃ n, B (s.bkt i) = some (n, .free) ∧ idx n = some i ∧ pure (s.mem (s.bkt i)) = n ∧ s.mem (s.bkt i) = n + 1 := by
  obtain ⟨l, hl⟩ := (I.lk i).head h0
  obtain ⟨n, h1, h2⟩ := I.lm (i := i) (a := s.bkt i) (by rw [hl]; simp)
  refine ⟨n, h1, h2, ?_, (I.free h1).1⟩
  rw [(I.free h1).1]
  exact pure_add (I.tile.al h1).2.1 (by omega)

/-- used blocks when a free block becomes used as a whole -/
theorem used_one {B : Map} {o n : Nat} (h : ∀ m, B o ≠ some (m, .used)) (a m : Nat) :
    mset (mset B o (some (n, .limbo))) o (some (n, .used)) a = some (m, .used) ↔
    B a = some (m, .used) ∨ (a = o ∧ m = n) := by
  by_cases ha : a = o
  · subst ha
    rw [mset_same]
    constructor
    · intro hh; cases hh; exact .inr ⟨rfl, rfl⟩
    · rintro (hh | ⟨_, rfl⟩)
      · exact absurd hh (h m)
      · rfl
  · rw [mset_ne _ _ ha, mset_ne _ _ ha]
    simp [ha]

theorem noL_one {B : Map} (hn : NoL B) {o n : Nat} {v} (hv : ∀ m, v ≠ some (m, .limbo)) :
    NoL (mset (mset B o (some (n, .limbo))) o v) := by
  intro a m
  by_cases ha : a = o
  · subst ha; rw [mset_same]; exact hv m
  · rw [mset_ne _ _ ha, mset_ne _ _ ha]; exact hn a m

theorem Inv.takePop {s B L} (I : Inv s B L) (hn : NoL B) (hb : Nat) {w i} (hw : w % 8 = 0) (h0 : s.bkt i ≠ 0)
    (ho : B (s.bkt i) = some (usedBytes w, .free)) (hi : idx (usedBytes w) = some i) :
    ∃ B' L', Got s B w (s.bkt i) ((Alloc.pop hb s i).store (s.bkt i) (usedHead w)) B' L' := by
  obtain ⟨I1, k1⟩ := I.pop hb h0 ho hi
  obtain ⟨I2, k2⟩ := I1.give hw (mset_same _ _ _)
  have hf : ∀ n, B (s.bkt i) ≠ some (n, .used) := by intro n h; rw [ho] at h; cases h
  have hp := pop_free hb s i
  exact ⟨_, _, I2, noL_one hn (by intro m h; cases h), k1.trans k2 ((UsedIn.refl B).mset hf), hf,
    (upd_same _ _ _).trans (pure_of hw), used_one hf, hp.2.2.1, hp.1, hp.2.1⟩

theorem Inv.takeDv {s B L} (I : Inv s B L) (hn : NoL B) {w} (hw : w % 8 = 0) (h0 : s.dv ≠ 0)
    (hs : usedBytes w = s.dvsz) :
    ∃ B' L', Got s B w s.dv ({ s with dv := 0, dvsz := 0 }.store s.dv (usedHead w)) B' L' := by
  have ho := I.dv1 h0
  have I1 := I.undv h0
  rw [← hs] at ho I1
  obtain ⟨I2, k2⟩ := I1.give hw (mset_same _ _ _)
  have hf : ∀ n, B s.dv ≠ some (n, .used) := by intro n h; rw [ho] at h; cases h
  exact ⟨_, _, I2, noL_one hn (by intro m h; cases h),
    Keeps.trans (s' := { s with dv := 0, dvsz := 0 }) (Keeps.refl B s) k2 ((UsedIn.refl B).mset hf), hf,
    (upd_same _ _ _).trans (pure_of hw), used_one hf, rfl, rfl, rfl⟩

/-- used blocks when the first part of a free block becomes used -/
theorem used_two {B : Map} {o n u : Nat} {r : K} (h : ∀ m, B o ≠ some (m, .used)) (hx : B (o + u) = none)
    (hu : 0 < u) (hr : r ≠ .used) (a m : Nat) :
    mset (mset (mset (mset (mset B o (some (n, .limbo))) o (some (u, .limbo))) (o + u) (some (n - u, .limbo)))
      (o + u) (some (n - u, r))) o (some (u, .used)) a = some (m, .used) ↔
    B a = some (m, .used) ∨ (a = o ∧ m = u) := by
  by_cases ha : a = o
  · subst ha
    rw [mset_same]
    constructor
    · intro hh; cases hh; exact .inr ⟨rfl, rfl⟩
    · rintro (hh | ⟨_, rfl⟩)
      · exact absurd hh (h m)
      · rfl
  · rw [mset_ne _ _ ha]
    by_cases hb : a = o + u
    · subst hb
      rw [mset_same, hx]
      constructor
      · intro hh; cases hh; exact absurd rfl hr
      · rintro (hh | ⟨hh, _⟩)
        · cases hh
        · exact absurd hh ha
    · rw [mset_ne _ _ hb, mset_ne _ _ hb, mset_ne _ _ ha, mset_ne _ _ ha]
      simp [ha]

theorem noL_two {B : Map} (hn : NoL B) {o n u : Nat} {r : K} (hr : r ≠ .limbo) :
    NoL (mset (mset (mset (mset (mset B o (some (n, .limbo))) o (some (u, .limbo))) (o + u) (some (n - u, .limbo)))
      (o + u) (some (n - u, r))) o (some (u, .used))) := by
  intro a m
  by_cases ha : a = o
  · subst ha; rw [mset_same]; intro h; cases h
  · rw [mset_ne _ _ ha]
    by_cases hb : a = o + u
    · subst hb; rw [mset_same]; intro h; cases h; exact hr rfl
    · rw [mset_ne _ _ hb, mset_ne _ _ hb, mset_ne _ _ ha, mset_ne _ _ ha]; exact hn a m

theorem Inv.none_inside {s B L} (I : Inv s B L) {o n k u} (ho : B o = some (n, k)) (h1 : 0 < u) (h2 : u < n) :
    B (o + u) = none := by
  cases h : B (o + u) with
  | none => rfl
  | some p => obtain ⟨p, k⟩ := p; have := I.tile.dis ho h (by omega); omega

theorem Inv.takeDvPart {s B L} (I : Inv s B L) (hn : NoL B) {w} (hw : w % 8 = 0) (h0 : s.dv ≠ 0)
    (hs : usedBytes w + minObj ≤ s.dvsz) :
    ∃ B' L', Got s B w s.dv ((Alloc.setDv s (s.dv + usedBytes w) (s.dvsz - usedBytes w)).store s.dv (usedHead w)) B' L' := by
  have ho := I.dv1 h0
  have hu := usedBytes_eq hw
  have hs : usedBytes w + 32 ≤ s.dvsz := hs
  have I1 := I.undv h0
  have I2 := I1.split (m := usedBytes w) (mset_same _ _ _) (by omega) (by omega) hs
  have hx := I.none_inside ho (u := usedBytes w) (by omega) (by omega)
  have hf : ∀ n, B s.dv ≠ some (n, .used) := by intro n h; rw [ho] at h; cases h
  have hfx : ∀ n, B (s.dv + usedBytes w) ≠ some (n, .used) := by intro n h; rw [hx] at h; cases h
  obtain ⟨I3, k3⟩ := I2.setDv (o := s.dv + usedBytes w) (mset_same _ _ _) rfl
  obtain ⟨I4, k4⟩ := I3.give (o := s.dv) hw (by
    rw [mset_ne _ _ (by omega), mset_ne _ _ (by omega), mset_same])
  have u1 := ((UsedIn.refl B).mset (v := some (s.dvsz, .limbo)) hf)
  have u2 := (u1.mset (v := some (usedBytes w, .limbo)) hf).mset (v := some (s.dvsz - usedBytes w, .limbo)) hfx
  have u3 := u2.mset (v := some (s.dvsz - usedBytes w, .dv)) hfx
  exact ⟨_, _, I4, noL_two hn (by decide),
    (Keeps.trans (s' := { s with dv := 0, dvsz := 0 }) (Keeps.refl B s) k3 u2).trans k4 u3, hf,
    (upd_same _ _ _).trans (pure_of hw), used_two hf hx (by omega) (by decide), rfl, rfl, rfl⟩

theorem Inv.takeSplit {s B L} (I : Inv s B L) (hn : NoL B) (hb : Nat) {w i} (hw : w % 8 = 0)
    (hc : canSplit s (usedBytes w) i = true) :
    ∃ s', Alloc.takeSplit hb s w (usedBytes w) i = .ok (s.bkt i) s' ∧ ∃ B' L', Got s B w (s.bkt i) s' B' L' := by
  simp only [canSplit, Bool.and_eq_true, decide_eq_true_eq] at hc
  obtain ⟨h0, hsz⟩ := hc
  obtain ⟨n, ho, hi, hp, hm⟩ := I.headBlock h0
  have hu := usedBytes_eq hw
  rw [hp] at hsz
  have hsz : usedBytes w + 32 ≤ n := hsz
  have hal := I.tile.al ho
  have hx := I.none_inside ho (u := usedBytes w) (by omega) (by omega)
  have hf : ∀ n, B (s.bkt i) ≠ some (n, .used) := by intro n h; rw [ho] at h; cases h
  have hfx : ∀ n, B (s.bkt i + usedBytes w) ≠ some (n, .used) := by intro n h; rw [hx] at h; cases h
  obtain ⟨I1, k1⟩ := I.cutHead h0 ho hi (mem' := s.mem) (fun _ _ => rfl)
  have I2 := I1.store (v := usedHead (usedBytes w)) (mset_same _ _ _) (w := s.bkt i) (Nat.le_refl _) (by omega)
  have k2 := I1.store_keeps (v := usedHead (usedBytes w)) (mset_same _ _ _) (w := s.bkt i) (Nat.le_refl _) (by omega)
  have I3 := I2.split (m := usedBytes w) (mset_same _ _ _) (by omega) (by omega) hsz
  obtain ⟨j, hj, _⟩ := I3.idx_some (a := s.bkt i + usedBytes w) (mset_same _ _ _)
  obtain ⟨I4, k4⟩ := I3.push hb (o := s.bkt i + usedBytes w) (mset_same _ _ _) hj
  obtain ⟨I5, k5⟩ := I4.give (o := s.bkt i) hw (by
    rw [mset_ne _ _ (by omega), mset_ne _ _ (by omega), mset_same])
  have u1 := ((UsedIn.refl B).mset (v := some (n, .limbo)) hf)
  have u2 := (u1.mset (v := some (usedBytes w, .limbo)) hf).mset (v := some (n - usedBytes w, .limbo)) hfx
  have u3 := u2.mset (v := some (n - usedBytes w, .free)) hfx
  have hpf := push_free hb (St.store { s with bkt := upd s.bkt i (s.mem (s.bkt i + 8)) } (s.bkt i) (usedHead (usedBytes w)))
    (s.bkt i + usedBytes w) (n - usedBytes w) j
  refine ⟨_, ?_, _, _, I5, noL_two hn (by decide), ((k1.trans k2 u1).trans k4 u2).trans k5 u3, hf,
    (upd_same _ _ _).trans (pure_of hw), used_two hf hx (by omega) (by decide), hpf.2.2.1, hpf.1, hpf.2.1⟩
  unfold Alloc.takeSplit splitFree
  simp only [hp, hj]
  rw [if_neg (by rw [hm]; omega)]
  rfl

/-! ### allocHere -/

theorem Inv.allocHere {s B L} (I : Inv s B L) (hn : NoL B) (hb : Nat) {w} (hw : w % 8 = 0) (hlt : w < 2 ^ 40) :
    Alloc.allocHere hb s w = none ∨
    ∃ o s', Alloc.allocHere hb s w = some (.ok o s') ∧ ∃ B' L', Got s B w o s' B' L' := by
  have hu := usedBytes_eq hw
  unfold Alloc.allocHere
  simp only []
  by_cases h1 : usedBytes w < 256 ∧ s.bkt (usedBytes w) ≠ 0
  · rw [if_pos h1]
    right
    obtain ⟨n, ho, hi, hp, hm⟩ := I.headBlock h1.2
    have hal := I.tile.al ho
    have hnn : n = usedBytes w := by
      by_cases hn' : n < 256
      · exact (idx_small hi hn').symm
      · have := idx_big hi (by omega); omega
    rw [hnn] at ho hi hal
    obtain ⟨B', L', G⟩ := I.takePop hn hb hw h1.2 ho hi
    have hB : ∃ m k, B' (s.bkt (usedBytes w) + usedBytes w) = some (m, k) :=
      G.inv.tile.nxt ((G.used _ _).2 (.inr ⟨rfl, rfl⟩)) (by decide)
    obtain ⟨m, k, hB⟩ := hB
    obtain ⟨I', k'⟩ := G.inv.markPrevUsed hB
    have hf := markPrevUsed_free ((Alloc.pop hb s (usedBytes w)).store (s.bkt (usedBytes w)) (usedHead w))
      (s.bkt (usedBytes w) + usedBytes w)
    refine ⟨_, _, rfl, B', L', I', G.noL, G.keeps.trans k' fun a n h => (G.used a n).2 (.inl h), G.fresh, ?_, G.used,
      hf.2.2.1.trans G.subs, hf.1.trans G.free, hf.2.1.trans G.size⟩
    rw [markPrevUsed_ne _ (by omega)]; exact G.head
  · rw [if_neg h1]
    cases hnear : near s (usedBytes w) with
    | some i =>
      right
      have := List.find?_some hnear
      simp only [Bool.and_eq_true, decide_eq_true_eq] at this
      obtain ⟨s', e, B', L', G⟩ := I.takeSplit hn hb hw this.2
      exact ⟨_, s', by simp only [e], B', L', G⟩
    | none =>
      simp only []
      by_cases h2 : s.dv ≠ 0 ∧ usedBytes w = s.dvsz
      · rw [if_pos h2]
        exact .inr ⟨_, _, rfl, I.takeDv hn hw h2.1 h2.2⟩
      · rw [if_neg h2]
        by_cases h3 : s.dv ≠ 0 ∧ usedBytes w + minObj ≤ s.dvsz
        · rw [if_pos h3]
          exact .inr ⟨_, _, rfl, I.takeDvPart hn hw h3.1 h3.2⟩
        · rw [if_neg h3]
          cases hex : Alloc.exact s (usedBytes w) with
          | some i =>
            right
            obtain ⟨s', e, B', L', G⟩ := I.takeSplit hn hb hw (List.find?_some hex)
            exact ⟨_, s', by simp only [e], B', L', G⟩
          | none =>
            obtain ⟨i, hi, _⟩ := Alloc.idx_some (n := usedBytes w) (by omega)
            simp only [hi]
            cases hv : Alloc.var s (usedBytes w) i with
            | none => exact .inl rfl
            | some j =>
              right
              have hj := List.find?_some hv
              simp only [Bool.and_eq_true, Bool.or_eq_true, decide_eq_true_eq, beq_iff_eq] at hj
              by_cases he : pure (s.mem (s.bkt j)) = usedBytes w
              · simp only [he, if_true]
                obtain ⟨n, ho, hi', hp, hm⟩ := I.headBlock hj.1
                have : n = usedBytes w := hp.symm.trans he
                subst this
                exact ⟨_, _, rfl, I.takePop hn hb hw hj.1 ho hi'⟩
              · simp only [he, if_false]
                obtain ⟨s', e, B', L', G⟩ := I.takeSplit hn hb hw (hj.2.resolve_left he)
                exact ⟨_, s', by simp only [e], B', L', G⟩

/-- there is a block of suitable size -/
def Avail (s : St) (u : Nat) : Prop :=
  (s.dv ≠ 0 ∧ (s.dvsz = u ∨ u + 32 ≤ s.dvsz)) ∨
  ∃ m i, idx m = some i ∧ s.bkt i ≠ 0 ∧ pure (s.mem (s.bkt i)) = m ∧ (m = u ∨ u + 32 ≤ m)

theorem Avail.allocHere {s : St} {w : Nat} (h : Avail s (usedBytes w)) (hb : Nat) :
    Alloc.allocHere hb s w ≠ none := by
  unfold Alloc.allocHere
  simp only []
  by_cases h1 : usedBytes w < 256 ∧ s.bkt (usedBytes w) ≠ 0
  · rw [if_pos h1]; simp
  · rw [if_neg h1]
    cases hnear : near s (usedBytes w) with
    | some i => simp
    | none =>
      simp only []
      rcases h with ⟨h0, h2⟩ | ⟨m, i, hi, hb0, hp, hm⟩
      · rcases h2 with h2 | h2
        · rw [if_pos ⟨h0, h2.symm⟩]; simp
        · by_cases h3 : s.dv ≠ 0 ∧ usedBytes w = s.dvsz
          · rw [if_pos h3]; simp
          · rw [if_neg h3, if_pos ⟨h0, h2⟩]; simp
      · by_cases h2 : s.dv ≠ 0 ∧ usedBytes w = s.dvsz
        · rw [if_pos h2]; simp
        · rw [if_neg h2]
          by_cases h3 : s.dv ≠ 0 ∧ usedBytes w + minObj ≤ s.dvsz
          · rw [if_pos h3]; simp
          · rw [if_neg h3]
            cases hex : Alloc.exact s (usedBytes w) with
            | some i => simp
            | none =>
              simp only []
              cases hiu : idx (usedBytes w) with
              | none => simp
              | some k =>
                simp only []
                have hki := idx_mono (n := usedBytes w) (m := m) (by omega) hiu hi
                cases hv : Alloc.var s (usedBytes w) k with
                | some j => simp only []; split <;> simp
                | none =>
                  exfalso
                  have hi288 : i < 288 := by
                    by_cases hm' : m < 256
                    · rw [idx_small hi hm']; omega
                    · exact (idx_big hi (by omega)).2
                  have := List.find?_eq_none.1 hv i (List.mem_range'_1.2 ⟨hki, by omega⟩)
                  apply this
                  simp only [canSplit, Bool.and_eq_true, Bool.or_eq_true, decide_eq_true_eq, beq_iff_eq, hp, minObj]
                  exact ⟨hb0, hm.imp id fun h => ⟨hb0, h⟩⟩

/-! ### New subareas -/

/-- the blocks of a new subarea -/
def addSub (B : Map) (off n : Nat) : Map :=
  mset (mset (mset B off (some (32, .edge))) (off + 32) (some (n - 64, .dv))) (off + n - 32) (some (32, .fin))

theorem addSub_eq {B : Map} {off n a : Nat} {v} (h8 : 8192 ≤ n) (h : addSub B off n a = some v) :
    (a = off ∧ v = (32, .edge)) ∨ (a = off + 32 ∧ v = (n - 64, .dv)) ∨ (a = off + n - 32 ∧ v = (32, .fin)) ∨
    B a = some v := by
  unfold addSub at h
  rcases mset_eq h with ⟨rfl, hh⟩ | ⟨_, h⟩
  · cases hh; exact .inr (.inr (.inl ⟨rfl, rfl⟩))
  · rcases mset_eq h with ⟨rfl, hh⟩ | ⟨_, h⟩
    · cases hh; exact .inr (.inl ⟨rfl, rfl⟩)
    · rcases mset_eq h with ⟨rfl, hh⟩ | ⟨_, h⟩
      · cases hh; exact .inl ⟨rfl, rfl⟩
      · exact .inr (.inr (.inr h))

theorem addSub_at {B : Map} {off n : Nat} (h8 : 8192 ≤ n) :
    addSub B off n off = some (32, .edge) ∧ addSub B off n (off + 32) = some (n - 64, .dv) ∧
    addSub B off n (off + n - 32) = some (32, .fin) ∧ ∀ a, a < off → addSub B off n a = B a := by
  refine ⟨?_, ?_, ?_, fun a ha => ?_⟩
  · rw [addSub, mset_ne _ _ (by omega), mset_ne _ _ (by omega), mset_same]
  · rw [addSub, mset_ne _ _ (by omega), mset_same]
  · rw [addSub, mset_same]
  · rw [addSub, mset_ne _ _ (by omega), mset_ne _ _ (by omega), mset_ne _ _ (by omega)]

theorem Tile.addSub {fr subs B} (t : Tile fr subs B) {n k : Nat} (h8 : fr % 8 = 0) (h0 : 0 < fr)
    (hn : n = 8192 * 2 ^ k) : Tile (fr + n) (subs ++ [(fr, n)]) (Alloc.addSub B fr n) := by
  have hp : 0 < 2 ^ k := Nat.pow_pos (by omega)
  have hn8 : 8192 ≤ n ∧ n % 32 = 0 := by subst hn; omega
  obtain ⟨a1, a2, a3, a4⟩ := addSub_at (B := B) (off := fr) hn8.1
  have low : ∀ {a m j}, B a = some (m, j) → a < fr := fun h => by have := t.al h; omega
  have up : ∀ {a m j}, B a = some (m, j) → Alloc.addSub B fr n a = some (m, j) := fun h => by rw [a4 _ (low h)]; exact h
  refine ⟨?_, ?_, ?_, ?_, ?_, ?_, ?_⟩
  · intro a m j h
    rcases addSub_eq hn8.1 h with ⟨rfl, hv⟩ | ⟨rfl, hv⟩ | ⟨rfl, hv⟩ | h
    · cases hv; omega
    · cases hv; omega
    · cases hv; omega
    · have := t.al h; omega
  · intro a m j b p q ha hb hab
    rcases addSub_eq hn8.1 ha with ⟨ea, hv⟩ | ⟨ea, hv⟩ | ⟨ea, hv⟩ | ha' <;>
    rcases addSub_eq hn8.1 hb with ⟨eb, hv'⟩ | ⟨eb, hv'⟩ | ⟨eb, hv'⟩ | hb' <;>
    first
    | (cases hv; cases hv'; omega)
    | (cases hv; have := t.al hb'; omega)
    | (cases hv'; have := t.al ha'; omega)
    | exact t.dis ha' hb' hab
  · intro a m j h hj
    rcases addSub_eq hn8.1 h with ⟨rfl, hv⟩ | ⟨rfl, hv⟩ | ⟨rfl, hv⟩ | h
    · cases hv; exact ⟨_, _, a2⟩
    · cases hv
      exact ⟨_, _, by rw [show fr + 32 + (n - 64) = fr + n - 32 by omega]; exact a3⟩
    · cases hv; exact absurd rfl hj
    · obtain ⟨m', j', h'⟩ := t.nxt h hj
      exact ⟨m', j', up h'⟩
  · intro p hp
    rcases List.mem_append.1 hp with hp | hp
    · obtain ⟨h1, h2, h3⟩ := t.sub hp
      exact ⟨up h1, up h2, h3⟩
    · simp at hp; subst hp
      exact ⟨a1, a3, k, hn⟩
  · intro a m j h
    rcases addSub_eq hn8.1 h with ⟨rfl, hv⟩ | ⟨rfl, hv⟩ | ⟨rfl, hv⟩ | h
    · cases hv; exact ⟨(a, n), by simp, by simp, by simp; omega⟩
    · cases hv; exact ⟨(fr, n), by simp, by simp, by simp; omega⟩
    · cases hv; exact ⟨(fr, n), by simp, by simp; omega, by simp; omega⟩
    · obtain ⟨p, hp, h1⟩ := t.ins h
      exact ⟨p, by simp [hp], h1⟩
  · rw [List.pairwise_append]
    refine ⟨t.ord, by simp, ?_⟩
    intro p hp q hq
    simp at hq; subst hq
    obtain ⟨h1, h2, h3⟩ := t.sub hp
    have := t.al h2
    omega
  · intro a m j h
    rcases addSub_eq hn8.1 h with ⟨rfl, hv⟩ | ⟨rfl, hv⟩ | ⟨rfl, hv⟩ | h
    · cases hv; exact ⟨fun _ => ⟨(a, n), by simp, rfl⟩, fun he => by cases he⟩
    · cases hv; exact ⟨fun he => (by cases he), fun he => (by cases he)⟩
    · cases hv; exact ⟨fun he => (by cases he), fun _ => ⟨(fr, n), by simp, rfl⟩⟩
    · obtain ⟨h1, h2⟩ := t.ends h
      refine ⟨fun he => ?_, fun he => ?_⟩
      · obtain ⟨p, hp, h⟩ := h1 he; exact ⟨p, by simp [hp], h⟩
      · obtain ⟨p, hp, h⟩ := h2 he; exact ⟨p, by simp [hp], h⟩

/-- a new subarea, the old victim is gone -/
theorem Inv.addSub {s B L} (I : Inv s B L) (h0 : s.dv = 0) {n k : Nat} (hn : n = 8192 * 2 ^ k)
    (hf : s.free + n ≤ s.size) {mem' : Nat → Nat} (hm : ∀ x, x < s.free → mem' x = s.mem x)
    (e1 : mem' s.free = 35) (e2 : mem' (s.free + 8) = 0) (e3 : mem' (s.free + n - 32) = 35)
    (e4 : mem' (s.free + n - 32 + 8) = 0) (e5 : mem' (s.free + 32) = n - 64 + 3) (e6 : mem' (s.free + 32 + 8) = 1) :
    Inv { s with mem := mem', dv := s.free + 32, dvsz := n - 64, subs := s.subs ++ [(s.free, n)], free := s.free + n }
      (Alloc.addSub B s.free n) L ∧
    Keeps B s { s with mem := mem', dv := s.free + 32, dvsz := n - 64, subs := s.subs ++ [(s.free, n)],
                       free := s.free + n } := by
  have hp : 0 < 2 ^ k := Nat.pow_pos (by omega)
  have hn8 : 8192 ≤ n ∧ n % 32 = 0 := by subst hn; omega
  obtain ⟨a1, a2, a3, a4⟩ := addSub_at (B := B) (off := s.free) hn8.1
  have fs := I.fsz
  have low : ∀ {a m j}, B a = some (m, j) → a + m ≤ s.free ∧ 32 ≤ m := fun h => by have := I.tile.al h; omega
  have nodv : ∀ {a m}, B a ≠ some (m, .dv) := by
    intro a m h
    have := (I.dv h).1
    have := I.tile.al h
    omega
  constructor
  · refine ⟨I.tile.addSub fs.2.2.1 fs.2.2.2 hn, ?_, ?_, ?_, ?_, fun _ => a2, ?_, ?_, ?_, I.nd, ?_⟩
    · intro a m h
      rcases addSub_eq hn8.1 h with ⟨rfl, hv⟩ | ⟨rfl, hv⟩ | ⟨rfl, hv⟩ | h
      · cases hv
      · cases hv
      · cases hv
      · have := low h
        show mem' a % 2 = 0 ∧ usedSize (mem' a) = m
        rw [hm a (by omega)]; exact I.used h
    · intro a m h
      rcases addSub_eq hn8.1 h with ⟨rfl, hv⟩ | ⟨rfl, hv⟩ | ⟨rfl, hv⟩ | h
      · cases hv
      · cases hv
      · cases hv
      · have := low h
        show mem' a = m + 1 ∧ _
        rw [hm a (by omega)]; exact I.free h
    · intro a m h
      rcases addSub_eq hn8.1 h with ⟨rfl, hv⟩ | ⟨rfl, hv⟩ | ⟨rfl, hv⟩ | h
      · cases hv
      · cases hv; exact ⟨rfl, rfl, e5, e6⟩
      · cases hv
      · exact absurd h nodv
    · intro a m j h hj
      rcases addSub_eq hn8.1 h with ⟨rfl, hv⟩ | ⟨rfl, hv⟩ | ⟨rfl, hv⟩ | h
      · cases hv; exact ⟨rfl, e1, e2⟩
      · cases hv; rcases hj with h | h <;> cases h
      · cases hv; exact ⟨rfl, e3, e4⟩
      · have := low h
        show _ ∧ mem' a = 35 ∧ mem' (a + 8) = 0
        rw [hm a (by omega), hm (a + 8) (by omega)]; exact I.mark h hj
    · intro h
      have : s.free + 32 = 0 := h
      omega
    · intro i
      refine (I.lk i).frame fun x hx => ?_
      obtain ⟨m, h, _⟩ := I.lm hx
      have := low h
      exact ⟨hm _ (by omega), hm _ (by omega)⟩
    · intro i a h
      obtain ⟨m, h1, h2⟩ := I.lm h
      have := low h1
      exact ⟨m, by rw [a4 a (by omega)]; exact h1, h2⟩
    · show s.free + n ≤ s.size ∧ s.size ≤ 2 ^ 40 ∧ (s.free + n) % 8 = 0 ∧ 0 < s.free + n
      omega
  · intro a m h
    have := low h
    exact ⟨by show mem' a / 4 = _; rw [hm a (by omega)], fun x hx hx' => hm x (by omega)⟩

theorem push_with (hb : Nat) (s : St) (o n i : Nat) (sb : List (Nat × Nat)) (fr : Nat) :
    push hb { s with subs := sb, free := fr } o n i = { push hb s o n i with subs := sb, free := fr } := by
  unfold push; by_cases h : s.bkt i = 0 <;> simp [h, St.store]

/-- the state reached by the last part of `freespace` -/
def fresh (s : St) (off n : Nat) : St :=
  let s := (((s.store off (specialHead 32)).store (off + 8) 0).store (off + 16) 0).store (off + 24) 32
  let e := off + n - 32
  let s := (((s.store e (specialHead 32)).store (e + 8) 0).store (e + 16) 0).store (e + 24) 32
  setDv s (off + 32) (n - 64)

theorem Inv.fresh {s B L} (I : Inv s B L) (h0 : s.dv = 0) {n k : Nat} (hn : n = 8192 * 2 ^ k)
    (hf : s.free + n ≤ s.size) :
    Inv (Alloc.fresh { s with subs := s.subs ++ [(s.free, n)], free := s.free + n } s.free n) (Alloc.addSub B s.free n) L ∧
    Keeps B s (Alloc.fresh { s with subs := s.subs ++ [(s.free, n)], free := s.free + n } s.free n) := by
  have hp : 0 < 2 ^ k := Nat.pow_pos (by omega)
  have hn8 : 8192 ≤ n ∧ n % 32 = 0 := by subst hn; omega
  refine I.addSub h0 hn hf (mem' := (Alloc.fresh { s with subs := s.subs ++ [(s.free, n)], free := s.free + n } s.free n).mem)
    ?_ ?_ ?_ ?_ ?_ ?_ ?_
  · intro x hx
    simp only [Alloc.fresh, Alloc.setDv, St.store]
    repeat rw [upd_ne _ _ (by omega)]
  all_goals
    simp only [Alloc.fresh, Alloc.setDv, St.store, upd]
  · rw [if_neg (by omega), if_neg (by omega), if_neg (by omega), if_neg (by omega), if_neg (by omega), if_neg (by omega),
      if_neg (by omega), if_neg (by omega), if_neg (by omega), if_pos (by trivial)]; rfl
  · rw [if_neg (by omega), if_neg (by omega), if_neg (by omega), if_neg (by omega), if_neg (by omega), if_neg (by omega),
      if_neg (by omega), if_neg (by omega), if_pos (by trivial)]
  · rw [if_neg (by omega), if_neg (by omega), if_neg (by omega), if_neg (by omega), if_neg (by omega), if_pos (by trivial)]; rfl
  · rw [if_neg (by omega), if_neg (by omega), if_neg (by omega), if_neg (by omega), if_pos (by trivial)]
  · rw [if_neg (by omega), if_pos (by trivial), specialHead, pure_of (by omega)]
  · rw [if_pos (by trivial)]

theorem fresh_free (s : St) (off n : Nat) :
    (fresh s off n).free = s.free ∧ (fresh s off n).size = s.size ∧ (fresh s off n).subs = s.subs := ⟨rfl, rfl, rfl⟩

theorem align8_of {n : Nat} (h : n % 8 = 0) : align8 n = n := by unfold align8; omega

/-- sizes of subareas that are asked for -/
def SubSize (n : Nat) : Prop := (∃ k, n = 8192 * 2 ^ k) ∨ n < 8192

theorem SubSize.half {n : Nat} (h : SubSize n) : SubSize (n / 2) := by
  rcases h with ⟨k, rfl⟩ | h
  · cases k with
    | zero => exact .inr (by omega)
    | succ k => exact .inl ⟨k, by rw [Nat.pow_succ]; omega⟩
  · exact .inr (by omega)

theorem grow_size {min : Nat} : ∀ k {n}, (∃ j, n = 8192 * 2 ^ j) → ∃ j, grow min k n = 8192 * 2 ^ j
  | 0, _, h => h
  | k + 1, n, h => by
    unfold grow
    split
    · refine grow_size k ?_
      obtain ⟨j, rfl⟩ := h
      exact ⟨j + 1, by rw [Nat.pow_succ]; omega⟩
    · exact h

theorem chunk_some {s : St} {n off : Nat} {s' : St} (h8 : s.free % 8 = 0) (hn : n % 8 = 0)
    (h : chunk s n = some (off, s')) : off = s.free ∧ s' = { s with free := s.free + n } ∧ s.free + n < s.size := by
  unfold chunk at h
  rw [align8_of (by omega)] at h
  split at h
  · cases h
  · cases h; exact ⟨rfl, rfl, by omega⟩

theorem tryChunk_some {s : St} {min : Nat} (hmin : 8192 ≤ min) (h8 : s.free % 8 = 0) : ∀ k {n off m s'}, SubSize n →
    tryChunk s min k n = some (off, m, s') →
    off = s.free ∧ s' = { s with free := s.free + m } ∧ s.free + m < s.size ∧ min ≤ m ∧ ∃ j, m = 8192 * 2 ^ j
  | 0, _, _, _, _, _, h => by simp [tryChunk] at h
  | k + 1, n, off, m, s', hn, h => by
    unfold tryChunk at h
    split at h
    · cases h
    · rename_i hge
      have hj : ∃ j, n = 8192 * 2 ^ j := by
        rcases hn with h | h
        · exact h
        · omega
      cases hc : chunk s n with
      | none =>
        rw [hc] at h
        exact tryChunk_some hmin h8 k hn.half h
      | some p =>
        obtain ⟨p, q⟩ := p
        rw [hc] at h
        simp only [Option.some.injEq, Prod.mk.injEq] at h
        obtain ⟨rfl, rfl, rfl⟩ := h
        obtain ⟨h1, h2, h3⟩ := chunk_some h8 (by obtain ⟨j, rfl⟩ := hj; omega) hc
        exact ⟨h1, h2, h3, by omega, hj⟩

/-- what is known after an extension -/
structure Ext (s : St) (B : Map) (s' : St) (B' : Map) (L' : Nat → List Nat) : Prop where
  inv : Inv s' B' L'
  noL : NoL B'
  keeps : Keeps B s s'
  used : ∀ a n, B' a = some (n, .used) ↔ B a = some (n, .used)
  len : s'.subs.length = s.subs.length + 1
  size : s'.size = s.size

theorem Inv.extend {s B L} (I : Inv s B L) (hn : NoL B) (hb : Nat) {mb : Nat} :
    Alloc.extend hb s mb = none ∨ ∃ s' B' L', Alloc.extend hb s mb = some s' ∧ Ext s B s' B' L' ∧ s.subs.length < 64 := by
  unfold Alloc.extend
  by_cases hl : s.subs.length ≥ 64
  · rw [if_pos hl]; exact .inl rfl
  · rw [if_neg hl]
    simp only []
    have hlast : ∃ j, 2 * (s.subs.getLast?.getD (0, 8192)).2 = 8192 * 2 ^ j := by
      cases h : s.subs.getLast? with
      | none => exact ⟨1, rfl⟩
      | some p =>
        obtain ⟨_, _, j, hj⟩ := I.tile.sub (List.mem_of_getLast? h)
        exact ⟨j + 1, by simp only [Option.getD_some]; rw [hj, Nat.pow_succ]; omega⟩
    have fs := I.fsz
    cases hc : tryChunk s (max (mb + 8 + 64) 8192) 64 (grow (max (mb + 8 + 64) 8192) 64 (2 * (s.subs.getLast?.getD (0, 8192)).2)) with
    | none => exact .inl rfl
    | some r =>
      obtain ⟨off, n, s1⟩ := r
      obtain ⟨rfl, rfl, hsz, hge, k, hk⟩ := tryChunk_some (by omega) fs.2.2.1 64 (.inl (grow_size 64 hlast)) hc
      have hp : 0 < 2 ^ k := Nat.pow_pos (by omega)
      have hn32 : n % 32 = 0 := by subst hk; omega
      right
      simp only [Option.bind_some, freespace, hn32, Nat.sub_zero, Bool.not_false, Bool.true_and]
      by_cases hd : s.dv = 0
      · have hcnd : (decide (s.dv ≠ 0) && decide (s.dvsz ≥ minObj)) = false := by simp [hd]
        simp only [hcnd, Bool.false_eq_true, if_false, Option.map_some]
        obtain ⟨I1, k1⟩ := I.fresh hd hk (by omega)
        refine ⟨_, _, _, rfl, ⟨I1, ?_, k1, ?_, ?_, rfl⟩, by omega⟩
        · intro a m h
          rcases addSub_eq (by subst hk; omega) h with ⟨rfl, hv⟩ | ⟨rfl, hv⟩ | ⟨rfl, hv⟩ | h
          · cases hv
          · cases hv
          · cases hv
          · exact hn _ _ h
        · intro a m
          constructor
          · intro h
            rcases addSub_eq (by subst hk; omega) h with ⟨rfl, hv⟩ | ⟨rfl, hv⟩ | ⟨rfl, hv⟩ | h
            · cases hv
            · cases hv
            · cases hv
            · exact h
          · intro h
            have := I.tile.al h
            rw [(addSub_at (by subst hk; omega)).2.2.2 a (by omega)]; exact h
        · show (s.subs ++ [(s.free, n)]).length = _
          simp
      · have hb0 := I.dv1 hd
        have hal := I.tile.al hb0
        have hcnd : (decide (s.dv ≠ 0) && decide (s.dvsz ≥ minObj)) = true := by
          rw [Bool.and_eq_true]; exact ⟨decide_eq_true hd, decide_eq_true hal.2.2.1⟩
        simp only [hcnd, if_true]
        obtain ⟨i, hi, _⟩ := I.idx_some hb0
        simp only [hi, Option.map_some]
        rw [push_with]
        have I0 := I.undv hd
        have e0 : Alloc.push hb { s with dv := 0, dvsz := 0 } s.dv s.dvsz i = { Alloc.push hb s s.dv s.dvsz i with dv := 0, dvsz := 0 } := by
          unfold Alloc.push; by_cases h : s.bkt i = 0 <;> simp [h, St.store]
        obtain ⟨I1, k1⟩ := I0.push hb (mset_same _ _ _) hi
        have pf := push_free hb s s.dv s.dvsz i
        rw [e0] at I1 k1
        have hff : ({ Alloc.push hb s s.dv s.dvsz i with dv := 0, dvsz := 0 } : St).free = s.free := pf.1
        obtain ⟨I2, k2⟩ := I1.fresh rfl hk (by rw [hff]; show _ ≤ (Alloc.push hb s s.dv s.dvsz i).size; rw [pf.2.1]; omega)
        have hst : Alloc.fresh { { Alloc.push hb s s.dv s.dvsz i with dv := 0, dvsz := 0 } with
              subs := ({ Alloc.push hb s s.dv s.dvsz i with dv := 0, dvsz := 0 } : St).subs ++
                [(({ Alloc.push hb s s.dv s.dvsz i with dv := 0, dvsz := 0 } : St).free, n)],
              free := ({ Alloc.push hb s s.dv s.dvsz i with dv := 0, dvsz := 0 } : St).free + n }
              ({ Alloc.push hb s s.dv s.dvsz i with dv := 0, dvsz := 0 } : St).free n =
            Alloc.fresh { Alloc.push hb s s.dv s.dvsz i with subs := s.subs ++ [(s.free, n)], free := s.free + n } s.free n := by
          simp only [pf.1, pf.2.2.1]; rfl
        rw [hst] at I2 k2
        rw [hff] at I2
        have hf : ∀ m, B s.dv ≠ some (m, .used) := by intro m h; rw [hb0] at h; cases h
        have u1 := (UsedIn.refl B).mset (v := some (s.dvsz, .limbo)) hf
        have u2 := u1.mset (v := some (s.dvsz, .free)) hf
        refine ⟨_, _, _, rfl, ⟨I2, ?_, (Keeps.trans (s' := { s with dv := 0, dvsz := 0 }) (Keeps.refl B s) k1 u1).trans k2 u2,
          ?_, ?_, pf.2.1⟩, by omega⟩
        · intro a m h
          rcases addSub_eq (by subst hk; omega) h with ⟨rfl, hv⟩ | ⟨rfl, hv⟩ | ⟨rfl, hv⟩ | h
          · cases hv
          · cases hv
          · cases hv
          · exact noL_one hn (by intro m h; cases h) a m h
        · intro a m
          constructor
          · intro h
            rcases addSub_eq (by subst hk; omega) h with ⟨rfl, hv⟩ | ⟨rfl, hv⟩ | ⟨rfl, hv⟩ | h
            · cases hv
            · cases hv
            · cases hv
            · rcases mset_eq h with ⟨rfl, hh⟩ | ⟨_, h⟩
              · cases hh
              · rcases mset_eq h with ⟨rfl, hh⟩ | ⟨_, h⟩
                · cases hh
                · exact h
          · intro h
            have := I.tile.al h
            rw [(addSub_at (by subst hk; omega)).2.2.2 a (by omega)]; exact u2 _ _ h
        · show (s.subs ++ [(s.free, n)]).length = _
          simp

end Gkc.Alloc
