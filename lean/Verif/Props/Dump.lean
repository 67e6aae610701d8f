import Verif.DumpLemmas
import Mathlib.Logic.Function.Iterate

/-! C59: dump files. -/

namespace Gkc.Props.Dp
open Gkc.Dump

/-! ### What is claimed -/

/-- what holds for the build: the fields up to `free` come first, and the header is larger than the buffer of wg_check_dump -/
structure BuildOk (B : Build) : Prop where
  first : 32 ≤ B.locks
  inside : B.locks + 48 ≤ B.hdr
  big : 8192 ≤ B.hdr

/-- a segment with a database: the header is the one of this program, the used part has the header and the cells of the lock, and
no other databases are referred to -/
structure Good (B : Build) (m : Image) : Prop where
  mark : mark m = 1232319011
  version : version m = B.version
  features : features m = B.features
  checksum : checksum m = 0
  size : size m = m.length
  used : (B.hdr : Int) ≤ free m
  fits : free m ≤ m.length
  ext : extCount B m = 0
  queue : B.hdr ≤ queueLock B m ∧ queueLock B m + 8 ≤ storage B m
  cells : 0 < maxNodes B m ∧ ((storage B m + 128 * maxNodes B m : Nat) : Int) ≤ free m

/-- a byte of the state of the lock: tail, freelist, the queue lock, the free list pointers in the cells -/
def LockByte (B : Build) (m : Image) (i : Nat) : Prop :=
  (B.locks ≤ i ∧ i < B.locks + 8) ∨ (B.locks + 32 ≤ i ∧ i < B.locks + 40) ∨ (queueLock B m ≤ i ∧ i < queueLock B m + 8) ∨
  ∃ j, j < maxNodes B m ∧ storage B m + 128 * j ≤ i ∧ i < storage B m + 128 * j + 8

/-- nobody has the lock or waits for it, and all cells are free -/
structure Unlocked (B : Build) (m : Image) : Prop where
  queue : rd m (queueLock B m) 8 = 0
  tail : tail B m = 0
  first : freelist B m = storage B m
  next : ∀ j, j + 1 < maxNodes B m → rd m (storage B m + 128 * j) 8 = storage B m + 128 * (j + 1)
  last : rd m (storage B m + 128 * (maxNodes B m - 1)) 8 = 0

/-- `r` is the database of `m` in the segment of `m'`: the used bytes are those of `m` but for the size of the segment, the
checksum and the lock, which is free; the rest is that of `m'` -/
structure Restored (B : Build) (m m' r : Image) : Prop where
  length : r.length = m'.length
  used : ∀ i : Nat, (i : Int) < free m → ¬ (12 ≤ i ∧ i < 24) → ¬ LockByte B m i → r.getD i 0 = m.getD i 0
  rest : ∀ i : Nat, free m ≤ i → r.getD i 0 = m'.getD i 0
  size : size r = size m'
  checksum : checksum r = 0
  unlocked : Unlocked B r

/-! ### Writing and reading -/

/-- the file when nothing changes meanwhile -/
def image (m : Image) : Image := wr (m.take (free m).toNat) 12 4 (updateCrc (m.take (free m).toNat) 0).toNat

variable {B : Build} {m : Image}

theorem Good.nat (h : Good B m) (hB : BuildOk B) : ∃ n, free m = (n : Nat) ∧ (free m).toNat = n ∧ B.hdr ≤ n ∧ n ≤ m.length ∧ 8192 ≤ n := by
  have := h.used
  have := h.fits
  have := hB.big
  exact ⟨(free m).toNat, by omega, rfl, by omega, by omega, by omega⟩

theorem image_length (hB : BuildOk B) (h : Good B m) : ((image m).length : Int) = free m := by
  obtain ⟨n, e1, e2, h1, h2, h3⟩ := h.nat hB
  rw [image, wr_length, e2, e1, List.length_take, Nat.min_eq_left h2]

theorem image_get (hB : BuildOk B) (h : Good B m) {i : Nat} (hi : (i : Int) < free m) (hc : i < 12 ∨ 16 ≤ i) : (image m).getD i 0 = m.getD i 0 := by
  obtain ⟨n, e1, e2, h1, h2, h3⟩ := h.nat hB
  rw [image, e2, wr_get_ne 4 _ _ _ _ (by omega), getD_take (by omega)]

theorem image_rd (hB : BuildOk B) (h : Good B m) {o k : Nat} (hi : ((o + k : Nat) : Int) ≤ free m) (hc : o + k ≤ 12 ∨ 16 ≤ o) : rd (image m) o k = rd m o k :=
  rd_congr k fun i h1 h2 => image_get hB h (by omega) (by omega)

theorem image_clear (hB : BuildOk B) (h : Good B m) : wr (image m) 12 4 0 = m.take (free m).toNat := by
  obtain ⟨n, e1, e2, h1, h2, h3⟩ := h.nat hB
  have hl := image_length hB h
  refine image_ext ?_ fun i hi => ?_
  · rw [wr_length, e2, List.length_take]
    omega
  · rw [wr_length] at hi
    have hi' : (i : Int) < free m := by omega
    by_cases hc : i < 12 ∨ 16 ≤ i
    · rw [wr_get_ne 4 _ _ _ _ (by omega), image_get hB h hi' hc, e2, getD_take (by omega)]
    · rw [wr_zero_get 4 _ _ _ (by omega) (by omega), e2, getD_take (by omega), rd_zero_get (o := 12) (k := 4) h.checksum (by omega) (by omega)]

theorem image_check (hB : BuildOk B) (h : Good B m) : check B (image m) = (0, free m, size m) := by
  obtain ⟨n, e1, e2, h1, h2, h3⟩ := h.nat hB
  have hl := image_length hB h
  have c1 : compat B (image m) = 0 := by
    rw [compat_congr (m' := m) fun i hi => image_get hB h (by omega) (by omega)]
    unfold compat
    rw [if_neg (by simp [h.mark]), if_neg (by simp [h.version]), if_neg (by simp [h.features])]
  have c2 : free (image m) = free m := congrArg gint (image_rd hB h (by omega) (by omega))
  have c3 : size (image m) = size m := congrArg gint (image_rd hB h (by omega) (by omega))
  have c4 : checksum (image m) = (updateCrc (m.take n) 0).toNat := by
    have : rd (image m) 12 4 = (updateCrc (m.take n) 0).toNat % 256 ^ 4 := by
      unfold image
      rw [rd_wr 4 _ _ _ (by rw [List.length_take, e2]; omega), e2]
    exact this.trans (Nat.mod_eq_of_lt (BitVec.isLt _))
  rw [check_eq, if_neg (by omega), c1, if_neg (by simp), c2, c3, c4, image_clear hB h, e2, if_pos]
  exact ⟨by omega, by simp⟩

/-- `initLocks` on a segment whose lock fields are as in `m` -/
theorem initLocks_spec (hB : BuildOk B) (h : Good B m) {x : Image} (hx : ∀ i : Nat, (i : Int) < free m → ¬ (12 ≤ i ∧ i < 24) → x.getD i 0 = m.getD i 0)
    (hl : free m ≤ x.length) (hs : x.length < 2 ^ 63) :
    (initLocks B x).length = x.length ∧ (∀ i, ¬ LockByte B m i → (initLocks B x).getD i 0 = x.getD i 0) ∧ Unlocked B (initLocks B x) := by
  obtain ⟨n, e1, e2, h1, h2, h3⟩ := h.nat hB
  obtain ⟨q1, q2⟩ := h.queue
  obtain ⟨c1, c2⟩ := h.cells
  have b1 := hB.first
  have b2 := hB.inside
  have f : ∀ {y : Image} {o k : Nat}, 24 ≤ o → o + k ≤ n → (∀ i, o ≤ i → i < o + k → y.getD i 0 = x.getD i 0) → rd y o k = rd m o k := by
    intro y o k h1 h2 h3
    exact rd_congr k fun i h4 h5 => (h3 i h4 h5).trans (hx i (by omega) (by omega))
  have est : storage B x = storage B m := f (by omega) (by omega) fun _ _ _ => rfl
  have emx : maxNodes B x = maxNodes B m := f (by omega) (by omega) fun _ _ _ => rfl
  generalize hq : queueLock B m = q at *
  generalize hst : storage B m = st at *
  generalize hmx : maxNodes B m = k at *
  -- the four writes
  let x1 := linkCells x st k
  let x2 := wr x1 (st + 128 * (k - 1)) 8 0
  let x3 := wr x2 (B.locks + 32) 8 st
  let x4 := wr x3 B.locks 8 0
  let x5 := wr x4 q 8 0
  have l1 : x1.length = x.length := linkCells_length _ _ _
  have l2 : x2.length = x.length := (wr_length _ _ _ _).trans l1
  have l3 : x3.length = x.length := (wr_length _ _ _ _).trans l2
  have l4 : x4.length = x.length := (wr_length _ _ _ _).trans l3
  have l5 : x5.length = x.length := (wr_length _ _ _ _).trans l4
  have g1 : ∀ i, (∀ j, j < k → i < st + 128 * j ∨ st + 128 * j + 8 ≤ i) → x2.getD i 0 = x.getD i 0 := by
    intro i hi
    rw [wr_get_ne 8 _ _ _ _ (by have := hi (k - 1) (by omega); omega), linkCells_get_ne k _ _ _ hi]
  have g1' : ∀ i, i < st → x2.getD i 0 = x.getD i 0 := fun i hi => g1 i fun j _ => by omega
  have es2 : storage B x2 = st := (f (by omega) (by omega) fun i _ h5 => g1' i (by omega)).trans hst
  have g4 : ∀ i, i < st → ¬ (B.locks ≤ i ∧ i < B.locks + 8) → ¬ (B.locks + 32 ≤ i ∧ i < B.locks + 40) → x4.getD i 0 = x.getD i 0 := by
    intro i hi ha hb
    rw [wr_get_ne 8 _ _ _ _ (by omega), wr_get_ne 8 _ _ _ _ (by omega), g1' i hi]
  have eq4 : queueLock B x4 = q := (f (by omega) (by omega) fun i _ h5 => g4 i (by omega) (by omega) (by omega)).trans hq
  have e : initLocks B x = x5 := by
    simp only [initLocks, est, emx]
    show wr (wr (wr x2 (B.locks + 32) 8 (storage B x2)) B.locks 8 0) _ 8 0 = x5
    rw [es2]
    show wr x4 (queueLock B x4) 8 0 = x5
    rw [eq4]
  rw [e]
  have g5 : ∀ i, ¬ LockByte B m i → x5.getD i 0 = x.getD i 0 := by
    intro i hi
    simp only [LockByte, hq, hst, hmx, not_or] at hi
    obtain ⟨i1, i2, i3, i4⟩ := hi
    rw [wr_get_ne 8 _ _ _ _ (by omega), wr_get_ne 8 _ _ _ _ (by omega), wr_get_ne 8 _ _ _ _ (by omega)]
    refine g1 i fun j hj => ?_
    by_cases hh : i < st + 128 * j ∨ st + 128 * j + 8 ≤ i
    · exact hh
    · exact (i4 ⟨j, hj, by omega, by omega⟩).elim
  have lb : ∀ i, B.locks + 8 ≤ i → i < B.locks + 32 → ¬ LockByte B m i := by
    intro i h1 h2
    simp only [LockByte, hq, hst, hmx]
    rintro (h | h | h | ⟨j, _, h, _⟩) <;> omega
  have es5 : storage B x5 = st := (f (by omega) (by omega) fun i _ _ => g5 i (lb i (by omega) (by omega))).trans hst
  have em5 : maxNodes B x5 = k := (f (by omega) (by omega) fun i _ _ => g5 i (lb i (by omega) (by omega))).trans hmx
  have eq5 : queueLock B x5 = q := (f (by omega) (by omega) fun i _ _ => g5 i (lb i (by omega) (by omega))).trans hq
  have up : ∀ {o : Nat}, st ≤ o → rd x5 o 8 = rd x2 o 8 := by
    intro o ho
    refine rd_congr 8 fun i h1 h2 => ?_
    rw [wr_get_ne 8 _ _ _ _ (by omega), wr_get_ne 8 _ _ _ _ (by omega), wr_get_ne 8 _ _ _ _ (by omega)]
  refine ⟨l5, g5, ?_, ?_, ?_, ?_, ?_⟩
  · rw [eq5]
    show rd (wr x4 q 8 0) q 8 = 0
    rw [rd_wr 8 _ _ _ (by omega)]
  · show rd x5 B.locks 8 = 0
    rw [rd_congr 8 (m' := x4) fun i h1 h2 => wr_get_ne 8 _ _ _ _ (by omega)]
    show rd (wr x3 B.locks 8 0) B.locks 8 = 0
    rw [rd_wr 8 _ _ _ (by omega)]
  · rw [es5]
    show rd x5 (B.locks + 32) 8 = st
    rw [rd_congr 8 (m' := x3) fun i h1 h2 => (wr_get_ne 8 _ _ _ _ (by omega)).trans (wr_get_ne 8 _ _ _ _ (by omega))]
    show rd (wr x2 (B.locks + 32) 8 st) (B.locks + 32) 8 = st
    rw [rd_wr 8 _ _ _ (by omega)]
    exact Nat.mod_eq_of_lt (by omega)
  · intro j hj
    rw [em5] at hj
    rw [es5, up (by omega)]
    show rd (wr x1 (st + 128 * (k - 1)) 8 0) _ 8 = _
    rw [rd_congr 8 (m' := x1) fun i h1 h2 => wr_get_ne 8 _ _ _ _ (by omega)]
    exact linkCells_rd k x st j (by omega) (by omega) (by omega)
  · rw [es5, em5, up (by omega)]
    show rd (wr x1 (st + 128 * (k - 1)) 8 0) _ 8 = _
    rw [rd_wr 8 _ _ _ (by omega)]

/-- A dump that was made while nothing changed is accepted, and loading it into any segment that is large enough restores the
database: all bytes of the used part but for the size of the segment, the checksum and the state of the lock, which is free.
Missing: changes meanwhile, for which it is false (`C59_reader_spoils_dump`, `C59_writer_spoils_dump`). -/
theorem C59_restored_partial (hB : BuildOk B) (h : Good B m) {m' : Image} (hs : size m' = m'.length) (hf : free m ≤ m'.length) (hl : m'.length < 2 ^ 63) :
    ∃ f, dump m true m m = (0, f) ∧ check B f = (0, free m, size m) ∧ ∃ r, importDump B m' f = (0, r) ∧ Restored B m m' r := by
  refine ⟨image m, rfl, image_check hB h, ?_⟩
  obtain ⟨n, e1, e2, h1, h2, h3⟩ := h.nat hB
  have b1 := hB.first
  have b2 := hB.inside
  have il := image_length hB h
  have c1 : extCount B (image m) = 0 := (image_rd hB h (by omega) (by omega)).trans h.ext
  have c2 : free (image m) = free m := congrArg gint (image_rd hB h (by omega) (by omega))
  obtain ⟨x, hx⟩ : ∃ x, x = wr (wr ((image m).take (free (image m)).toNat ++ m'.drop (free (image m)).toNat) 16 8 (rd m' 16 8)) 12 4 0 := ⟨_, rfl⟩
  have ei : importDump B m' (image m) = (0, initLocks B x) := by
    unfold importDump
    rw [if_neg (by omega), if_neg (by simp [c1])]
    simp only
    rw [if_neg (by omega), if_neg (by omega), if_neg (by omega), hx]
  have ex : x = wr (wr (image m ++ m'.drop n) 16 8 (rd m' 16 8)) 12 4 0 := by
    rw [hx, c2, e2, List.take_of_length_le (by omega)]
  have ln : (image m).length = n := by omega
  have lx : x.length = m'.length := by
    rw [ex, wr_length, wr_length, List.length_append, List.length_drop]
    omega
  have xu : ∀ i : Nat, (i : Int) < free m → ¬ (12 ≤ i ∧ i < 24) → x.getD i 0 = m.getD i 0 := by
    intro i h1 h2
    rw [ex, wr_get_ne 4 _ _ _ _ (by omega), wr_get_ne 8 _ _ _ _ (by omega), getD_append_left (by omega), image_get hB h h1 (by omega)]
  have xr : ∀ i : Nat, free m ≤ i → x.getD i 0 = m'.getD i 0 := by
    intro i hi
    rw [ex, wr_get_ne 4 _ _ _ _ (by omega), wr_get_ne 8 _ _ _ _ (by omega), getD_append_right (by omega), getD_drop, ln, Nat.add_sub_cancel' (by omega)]
  obtain ⟨g1, g2, g3⟩ := initLocks_spec hB h xu (by omega) (by omega)
  have q := h.queue
  have c := h.cells
  have low : ∀ i, i < 24 → ¬ LockByte B m i := by
    intro i hi
    rintro (h | h | h | ⟨j, _, h, _⟩) <;> omega
  have high : ∀ i : Nat, free m ≤ i → ¬ LockByte B m i := by
    intro i hi
    rintro (h | h | h | ⟨j, h4, h, h5⟩) <;> omega
  refine ⟨_, ei, by omega, fun i h1 h2 h3 => (g2 i h3).trans (xu i h1 h2), fun i hi => (g2 i (high i hi)).trans (xr i hi), ?_, ?_, g3⟩
  · refine congrArg gint ?_
    rw [rd_congr 8 (m' := wr (image m ++ m'.drop n) 16 8 (rd m' 16 8)) fun i h1 h2 => by
      rw [g2 i (low i (by omega)), ex, wr_get_ne 4 _ _ _ _ (by omega)]]
    rw [rd_wr 8 _ _ _ (by rw [List.length_append]; omega)]
    exact Nat.mod_eq_of_lt (rd_lt 8 _ _)
  · show rd _ 12 4 = 0
    rw [rd_congr 4 (m' := x) fun i h1 h2 => g2 i (low i (by omega)), ex, rd_wr 4 _ _ _ (by rw [wr_length, List.length_append]; omega)]

/-! ### Damaged files -/

/-- What a file that is accepted has: the header of this program and exactly the length it says. -/
theorem C59_accepted {f : Image} {lo hi : Int} (h : check B f = (0, lo, hi)) :
    mark f = 1232319011 ∧ version f = B.version ∧ features f = B.features ∧ (f.length : Int) = free f ∧ lo = free f ∧ hi = size f := by
  rw [check_eq] at h
  split at h
  · simp at h
  · split at h
    · simp at h
    · rename_i hc
      have hc := Decidable.of_not_not hc
      unfold compat at hc
      split at hc
      · simp at hc
      · split at hc
        · simp at hc
        · split at hc
          · simp at hc
          · rename_i a b c
            split at h
            · rename_i d
              simp only [Prod.mk.injEq, true_and] at h
              exact ⟨Decidable.of_not_not a, Decidable.of_not_not b, Decidable.of_not_not c, d.1, h.1.symm, h.2.symm⟩
            · simp at h

/-- `f` and `g` differ, but only among the four bytes from `p` on -/
structure Differ (f g : Image) (p : Nat) : Prop where
  length : g.length = f.length
  inside : p + 4 ≤ f.length
  same : ∀ i, (i < p ∨ p + 4 ≤ i) → g.getD i 0 = f.getD i 0
  ne : g ≠ f

theorem Differ.split {f g : Image} {p : Nat} (h : Differ f g p) : ∃ a w w' b, f = a ++ w ++ b ∧ g = a ++ w' ++ b ∧ w.length = 4 ∧ w'.length = 4 ∧ w ≠ w' := by
  have hi := h.inside
  have hl := h.length
  have e1 : g.take p = f.take p := by
    refine image_ext (by simp [hl]) fun i hi => ?_
    rw [List.length_take] at hi
    rw [getD_take (by omega), getD_take (by omega), h.same i (by omega)]
  have e2 : g.drop (p + 4) = f.drop (p + 4) := by
    refine image_ext (by simp [hl]) fun i hi => ?_
    rw [getD_drop, getD_drop, h.same _ (by omega)]
  have s : ∀ x : Image, x = x.take p ++ (x.drop p).take 4 ++ x.drop (p + 4) := by
    intro x
    rw [List.append_assoc, ← List.drop_drop, List.take_append_drop, List.take_append_drop]
  refine ⟨f.take p, (f.drop p).take 4, (g.drop p).take 4, f.drop (p + 4), s f, ?_, ?_, ?_, ?_⟩
  · rw [← e1, ← e2]; exact s g
  · rw [List.length_take, List.length_drop]; omega
  · rw [List.length_take, List.length_drop]; omega
  · intro e
    apply h.ne
    rw [s g, s f, e1, e2, e]

theorem Differ.crc {f g : Image} {p : Nat} (h : Differ f g p) (c : BitVec 32) : updateCrc g c ≠ updateCrc f c := by
  obtain ⟨a, w, w', b, rfl, rfl, h1, h2, h3⟩ := h.split
  exact fun e => h3 (burst h2 h1 e).symm

/-- A change among four bytes in a row is found: the file is refused.  The four bytes are outside of the checksum, or they are it. -/
theorem C59_damage_refused {f g : Image} {p : Nat} (hf : (check B f).1 = 0) (h : Differ f g p) (hp : p + 4 ≤ 12 ∨ p = 12 ∨ 16 ≤ p) :
    (check B g).1 ≠ 0 := by
  intro hg
  rw [check_eq] at hf hg
  have acc : ∀ {x : Image}, (if x.length < 8192 then ((-1 : Int), (0 : Int), (0 : Int)) else if compat B x ≠ 0 then (-2, 0, 0)
      else if (x.length : Int) = free x ∧ updateCrc (wr x 12 4 0) 0 = BitVec.ofNat 32 (checksum x) then (0, free x, size x)
      else (-3, free x, size x)).1 = 0 → updateCrc (wr x 12 4 0) 0 = BitVec.ofNat 32 (checksum x) := by
    intro x hx
    split at hx
    · simp at hx
    · split at hx
      · simp at hx
      · split at hx
        · rename_i d; exact d.2
        · simp at hx
  have kf := acc hf
  have kg := acc hg
  have hl := h.length
  have hi := h.inside
  by_cases e : p = 12
  · subst e
    have ec : wr g 12 4 0 = wr f 12 4 0 := by
      refine image_ext (by rw [wr_length, wr_length, hl]) fun i _ => ?_
      by_cases hc : i < 12 ∨ 16 ≤ i
      · rw [wr_get_ne 4 _ _ _ _ (by omega), wr_get_ne 4 _ _ _ _ (by omega), h.same i (by omega)]
      · rw [wr_zero_get 4 _ _ _ (by omega) (by omega), wr_zero_get 4 _ _ _ (by omega) (by omega)]
    rw [ec, kf] at kg
    have k := congrArg BitVec.toNat kg
    rw [BitVec.toNat_ofNat, BitVec.toNat_ofNat, Nat.mod_eq_of_lt (show checksum f < 2 ^ 32 from rd_lt 4 f 12), Nat.mod_eq_of_lt (show checksum g < 2 ^ 32 from rd_lt 4 g 12)] at k
    apply h.ne
    refine image_ext hl fun i _ => ?_
    by_cases hc : i < 12 ∨ 16 ≤ i
    · exact h.same i (by omega)
    · exact (rd_inj 4 k i (by omega) (by omega)).symm
  · have es : checksum g = checksum f := rd_congr 4 fun i h1 h2 => h.same i (by omega)
    rw [es, ← kf] at kg
    refine Differ.crc (p := p) (f := wr f 12 4 0) (g := wr g 12 4 0) ⟨?_, ?_, ?_, ?_⟩ 0 kg
    · rw [wr_length, wr_length, hl]
    · rw [wr_length]; exact hi
    · intro i hi
      by_cases hc : i < 12 ∨ 16 ≤ i
      · rw [wr_get_ne 4 _ _ _ _ (by omega), wr_get_ne 4 _ _ _ _ (by omega), h.same i (by omega)]
      · rw [wr_zero_get 4 _ _ _ (by omega) (by omega), wr_zero_get 4 _ _ _ (by omega) (by omega)]
    · intro e'
      apply h.ne
      refine image_ext hl fun i _ => ?_
      by_cases hc : i < 12 ∨ 16 ≤ i
      · have : (wr g 12 4 0).getD i 0 = (wr f 12 4 0).getD i 0 := by rw [e']
        rw [wr_get_ne 4 _ _ _ _ (by omega), wr_get_ne 4 _ _ _ _ (by omega)] at this
        exact this
      · exact h.same i (by omega)

/-- A file that was cut off, or to which something was added, is refused. -/
theorem C59_length_refused {f g : Image} (hf : (check B f).1 = 0) (hl : g.length ≠ f.length) (hh : ∀ i, 24 ≤ i → i < 32 → g.getD i 0 = f.getD i 0) :
    (check B g).1 ≠ 0 := by
  intro hg
  have a := C59_accepted (B := B) (f := f) (lo := (check B f).2.1) (hi := (check B f).2.2) (by rw [← hf])
  have b := C59_accepted (B := B) (f := g) (lo := (check B g).2.1) (hi := (check B g).2.2) (by rw [← hg])
  have : free g = free f := congrArg gint (rd_congr 8 fun i h1 h2 => hh i h1 (by omega))
  have := a.2.2.2.1
  have := b.2.2.2.1
  omega

/-! ### Changes meanwhile -/

/-- the file when the segment is written as `m2`, the checksum being that of `m1` -/
theorem dump_check {m0 m1 m2 : Image} (h2 : Good B m2) (h8 : 8192 ≤ free m0) (hle : free m0 ≤ m2.length)
    (hbad : ¬ ((free m0 : Int) = free m2 ∧ updateCrc (m2.take (free m0).toNat) 0 = updateCrc (m1.take (free m0).toNat) 0)) :
    ∃ f, dump m0 true m1 m2 = (0, f) ∧ (check B f).1 = -3 := by
  refine ⟨_, rfl, ?_⟩
  obtain ⟨n, hn⟩ : ∃ n : Nat, free m0 = n := ⟨(free m0).toNat, by omega⟩
  have en : (free m0).toNat = n := by omega
  rw [en, hn] at hbad
  simp only [en]
  generalize hcr : updateCrc (m1.take n) 0 = cr at *
  have lf : (wr (m2.take n) 12 4 cr.toNat).length = n := by rw [wr_length, List.length_take]; omega
  have gf : ∀ i, i < n → (i < 12 ∨ 16 ≤ i) → (wr (m2.take n) 12 4 cr.toNat).getD i 0 = m2.getD i 0 := by
    intro i h1 h2
    rw [wr_get_ne 4 _ _ _ _ (by omega), getD_take h1]
  have c1 : compat B (wr (m2.take n) 12 4 cr.toNat) = 0 := by
    rw [compat_congr (m' := m2) fun i hi => gf i (by omega) (by omega)]
    unfold compat
    rw [if_neg (by simp [h2.mark]), if_neg (by simp [h2.version]), if_neg (by simp [h2.features])]
  have c2 : free (wr (m2.take n) 12 4 cr.toNat) = free m2 := congrArg gint (rd_congr 8 fun i h3 h4 => gf i (by omega) (by omega))
  have c4 : BitVec.ofNat 32 (checksum (wr (m2.take n) 12 4 cr.toNat)) = cr := by
    have : rd (wr (m2.take n) 12 4 cr.toNat) 12 4 = cr.toNat % 256 ^ 4 := by
      rw [rd_wr 4 _ _ _ (by rw [List.length_take]; omega)]
    unfold checksum
    rw [this, Nat.mod_eq_of_lt cr.isLt]
    simp
  have c5 : wr (wr (m2.take n) 12 4 cr.toNat) 12 4 0 = m2.take n := by
    refine image_ext (by rw [wr_length, wr_length]) fun i hi => ?_
    rw [wr_length, lf] at hi
    by_cases hc : i < 12 ∨ 16 ≤ i
    · rw [wr_get_ne 4 _ _ _ _ (by omega), gf i hi hc, getD_take hi]
    · rw [wr_zero_get 4 _ _ _ (by omega) (by omega), getD_take hi, rd_zero_get (o := 12) (k := 4) h2.checksum (by omega) (by omega)]
  rw [check_eq, lf, if_neg (by omega), c1, if_neg (by simp), c2, c4, c5, if_neg hbad]

/-- Finding: the checksum is computed before the segment is written, under a lock for reading.  Another reader may come meanwhile, and
its first step is to set the queue lock, a word in the segment.  Then wg_dump reports success, but the file is refused. -/
theorem C59_reader_spoils_dump (hB : BuildOk B) (h : Good B m) (hq : rd m (queueLock B m) 8 = 0) :
    ∃ f, dump m true m (wr m (queueLock B m) 8 1) = (0, f) ∧ (check B f).1 = -3 := by
  obtain ⟨n, e1, e2, h1, h2, h3⟩ := h.nat hB
  obtain ⟨q1, q2⟩ := h.queue
  obtain ⟨k1, k2⟩ := h.cells
  have b1 := hB.first
  have b2 := hB.inside
  have get : ∀ i, i < B.hdr → (wr m (queueLock B m) 8 1).getD i 0 = m.getD i 0 := fun i hi => wr_get_ne 8 _ _ _ _ (by omega)
  have rdh : ∀ {o k : Nat}, o + k ≤ B.hdr → rd (wr m (queueLock B m) 8 1) o k = rd m o k := fun ho => rd_congr _ fun i _ h2 => get i (by omega)
  have good : Good B (wr m (queueLock B m) 8 1) := by
    have f1 : free (wr m (queueLock B m) 8 1) = free m := congrArg gint (rdh (by omega))
    have f2 : queueLock B (wr m (queueLock B m) 8 1) = queueLock B m := rdh (by omega)
    have f3 : storage B (wr m (queueLock B m) 8 1) = storage B m := rdh (by omega)
    have f4 : maxNodes B (wr m (queueLock B m) 8 1) = maxNodes B m := rdh (by omega)
    exact ⟨(rdh (by omega)).trans h.mark, (rdh (by omega)).trans h.version, (rdh (by omega)).trans h.features, (rdh (by omega)).trans h.checksum,
      (congrArg gint (rdh (by omega))).trans (by rw [wr_length]; exact h.size), by rw [f1]; exact h.used, by rw [f1, wr_length]; exact h.fits,
      (rdh (by omega)).trans h.ext, by rw [f2, f3]; exact h.queue, by rw [f3, f4, f1]; exact h.cells⟩
  refine dump_check good (by omega) (by rw [wr_length]; omega) ?_
  rintro ⟨_, hc⟩
  rw [e2] at hc
  -- only the first byte of the word changes
  have e : wr m (queueLock B m) 8 1 = wr (m.set (queueLock B m) 1#8) (queueLock B m + 1) 7 0 := rfl
  refine Differ.crc (f := m.take n) (g := (wr m (queueLock B m) 8 1).take n) (p := queueLock B m) ⟨?_, ?_, ?_, ?_⟩ 0 hc
  · rw [List.length_take, List.length_take, wr_length]
  · rw [List.length_take]; omega
  · intro i hi
    by_cases hin : i < n
    · rw [getD_take hin, getD_take hin]
      by_cases h8 : i < queueLock B m ∨ queueLock B m + 8 ≤ i
      · exact wr_get_ne 8 _ _ _ _ h8
      · rw [e, wr_zero_get 7 _ _ _ (by omega) (by omega), rd_zero_get hq (by omega) (by omega)]
    · have : ∀ x : Image, (x.take n).getD i 0 = 0 := by
        intro x
        rw [List.getD_eq_getElem?_getD, List.getElem?_take, if_neg hin]
        rfl
      rw [this, this]
  · intro e'
    have : ((wr m (queueLock B m) 8 1).take n).getD (queueLock B m) 0 = (m.take n).getD (queueLock B m) 0 := by rw [e']
    rw [getD_take (by omega), getD_take (by omega), e, wr_get_ne 7 _ _ _ _ (by omega), rd_zero_get hq (by omega) (by omega)] at this
    rw [List.getD_eq_getElem?_getD, List.getElem?_set] at this
    have hl : queueLock B m < m.length := by omega
    simp [hl] at this

/-- Finding: the number of used bytes is read before the lock is asked for.  If a writer that has the lock takes more memory meanwhile,
wg_dump reports success, but the file is refused. -/
theorem C59_writer_spoils_dump {m0 : Image} (h : Good B m) (h8 : 8192 ≤ free m0) (hg : free m0 < free m) :
    ∃ f, dump m0 true m m = (0, f) ∧ (check B f).1 = -3 := by
  have := h.fits
  exact dump_check h h8 (by omega) (fun hh => by omega)

/-- Finding: the file is emptied before the lock is asked for.  If the lock is not given, wg_dump reports a failure, and a dump that was
in the file is lost. -/
theorem C59_old_dump_lost (m0 m1 m2 : Image) : ∃ f, dump m0 false m1 m2 = (-1, f) ∧ (check B f).1 = -1 :=
  ⟨[], rfl, rfl⟩

/-- Finding: the checksum is not CRC-32, because `crc >> 8` keeps the sign of a gint32: CRC-32 of "123456789" is 0xcbf43926. -/
theorem C59_not_crc32 : updateCrc ("123456789".toList.map fun c => BitVec.ofNat 8 c.toNat) 0 ≠ 0xcbf43926#32 := by decide +kernel

/-- one step of dividing by the polynomial of CRC-32, lowest bit first -/
def divStep (c : Nat) : Nat := if c % 2 = 1 then (c / 2) ^^^ 0xedb88320 else c / 2

/-- C59: the table is the one of CRC-32: each entry is what is left of its index after eight steps. -/
theorem C59_table (i : Nat) (h : i < 256) : table (BitVec.ofNat 8 i) = BitVec.ofNat 32 (divStep^[8] i) := by
  have key : ∀ i : Fin 256, crcTab.getD i.1 0 = divStep^[8] i.1 := by decide +kernel
  rw [← key ⟨i, h⟩, table, BitVec.toNat_ofNat, Nat.mod_eq_of_lt (by omega)]

/-- the table has an entry for each byte -/
example : divStep^[8] 1 = 0x77073096 := by decide +kernel

/-- C59: importing reports success exactly when the header is there, the database has no links to external ones, and the part in use
is in the file and fits into the segment. -/
theorem C59_import_succeeds (B : Build) (m f : Image) : (importDump B m f).1 = 0 ↔
    B.hdr ≤ f.length ∧ extCount B f = 0 ∧ 0 < free f ∧ free f ≤ size m ∧ free f ≤ f.length := by
  unfold importDump
  split
  · simp; omega
  · split
    · rename_i h; simp [h]
    · rename_i h
      have h : extCount B f = 0 := by simpa using h
      simp only
      split
      · simp; omega
      · split
        · simp; omega
        · split
          · simp; omega
          · simp only [h, true_and, true_iff]; omega

/-- C59: if it reports -1, the segment is as it was. -/
theorem C59_refused_untouched (B : Build) (m f : Image) (h : (importDump B m f).1 = -1) : (importDump B m f).2 = m := by
  have hs := (C59_import_succeeds B m f).2
  by_cases h1 : f.length < B.hdr
  · rw [importDump, if_pos h1]
  · by_cases h2 : extCount B f ≠ 0
    · rw [importDump, if_neg h1, if_pos h2]
    · by_cases h3 : size m < free f
      · rw [importDump, if_neg h1, if_neg h2]
        simp only [h3, if_true]
      · by_cases h4 : free f ≤ 0
        · rw [importDump, if_neg h1, if_neg h2]
          simp only [h3, h4, if_true, if_false]
        · by_cases h5 : (f.length : Int) < free f
          · rw [importDump, if_neg h1, if_neg h2] at h
            simp only [h3, h4, h5, if_true, if_false] at h
            exact absurd h (by decide)
          · rw [hs ⟨by omega, by simpa using h2, by omega, by omega, by omega⟩] at h
            exact absurd h (by decide)

/-! ### An example -/

/-- a build with the smallest header, and a segment with one cell for locks -/
def exB : Build := ⟨131073, 7, 32, 8192⟩
def exM : Image :=
  wr (wr (wr (wr (wr (wr (wr (wr (List.replicate 9000 0#8) 0 4 1232319011) 4 4 131073) 8 4 7) 16 8 9000) 24 8 8500) 40 8 8192) 48 8 8320) 56 8 1

theorem exB_ok : BuildOk exB := ⟨by decide, by decide, by decide⟩

theorem exM_length : exM.length = 9000 := by
  unfold exM
  rw [wr_length, wr_length, wr_length, wr_length, wr_length, wr_length, wr_length, wr_length, List.length_replicate]

theorem exM_good : Good exB exM := by
  have hl := exM_length
  have hf : free exM = 8500 := by decide +kernel
  have h3 : storage exB exM = 8320 := by decide +kernel
  have h4 : maxNodes exB exM = 1 := by decide +kernel
  have h5 : queueLock exB exM = 8192 := by decide +kernel
  refine ⟨by decide +kernel, by decide +kernel, by decide +kernel, by decide +kernel, ?_, ?_, ?_, by decide +kernel, ?_, ?_⟩
  · rw [hl]; decide +kernel
  · rw [hf]; decide
  · rw [hf, hl]; decide
  · rw [h3, h5]; decide
  · rw [h3, h4, hf]; decide

example : BuildOk exB ∧ Good exB exM ∧ size exM = exM.length ∧ free exM ≤ exM.length ∧ exM.length < 2 ^ 63 :=
  ⟨exB_ok, exM_good, exM_good.size, exM_good.fits, by rw [exM_length]; decide⟩

/-- a file that is accepted, and one that differs in a byte -/
example : ∃ f g, (check exB f).1 = 0 ∧ Differ f g 8000 := by
  refine ⟨image exM, (image exM).set 8001 5#8, ?_, ?_⟩
  · rw [image_check exB_ok exM_good]
  · have hl : (image exM).length = 8500 := by
      have := image_length exB_ok exM_good
      have hf : free exM = 8500 := by decide +kernel
      omega
    refine ⟨by simp, by omega, ?_, ?_⟩
    · intro i hi
      rw [List.getD_eq_getElem?_getD, List.getD_eq_getElem?_getD, List.getElem?_set, if_neg (by omega)]
    · intro e
      have : ((image exM).set 8001 5#8).getD 8001 0 = (image exM).getD 8001 0 := by rw [e]
      have h0 : (image exM).getD 8001 0 = exM.getD 8001 0 := image_get exB_ok exM_good (by decide +kernel) (by omega)
      have h1 : exM.getD 8001 0 = 0 := by decide +kernel
      rw [h0, h1, List.getD_eq_getElem?_getD, List.getElem?_set] at this
      simp [hl] at this

/-- the segment before a writer took memory -/
example : Good exB exM ∧ rd exM (queueLock exB exM) 8 = 0 ∧ 8192 ≤ free (wr exM 24 8 8400) ∧ free (wr exM 24 8 8400) < free exM := by
  refine ⟨exM_good, by decide +kernel, by decide +kernel, by decide +kernel⟩

end Gkc.Props.Dp
