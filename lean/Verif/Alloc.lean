/-
The allocator of variable-length objects in the shared memory segment (Db/dballoc.c): records, long
strings and reasoner data are kept in areas of this kind.

Sizes and offsets are in bytes, a `gint` has 8 of them (HAVE_64BIT_GINT) and the memory is a function
from offsets to words.  Only offsets divisible by 8 are ever used; reading a word elsewhere is the
outcome `ub`.  One area is modelled, with its header (`freebuckets`, `subarea_array`), together with the
bounds `free` and `size` of the segment.  Words are natural numbers: overflow of 64 bit numbers is left
out, sizes stay below 2^40 (`idx`).
-/
namespace Gkc.Alloc

/-- db_area_header with what it needs from db_memsegment_header, Db/dballoc.h:323-330.  `bkt` are the
first 288 elements of `freebuckets`, `dv` and `dvsz` the last two (DVBUCKET, DVSIZEBUCKET). `subs` are the
offsets and sizes of the subareas, the first one first. -/
structure St where
  mem : Nat → Nat
  bkt : Nat → Nat
  dv : Nat
  dvsz : Nat
  subs : List (Nat × Nat)
  free : Nat
  size : Nat

/-- change of one value of a function -/
def upd (f : Nat → Nat) (a v : Nat) : Nat → Nat := fun x => if x = a then v else f x

/-- dbstore, Db/dballoc.h:204 -/
def St.store (s : St) (a v : Nat) : St := { s with mem := upd s.mem a v }

/-- MIN_VARLENOBJ_SIZE, Db/dballoc.h:170 -/
def minObj : Nat := 32

/-- the number without its two lowest bits: getfreeobjectsize, Db/dballoc.h:228 -/
def pure (w : Nat) : Nat := w / 4 * 4
/-- makefreeobjectsize, Db/dballoc.h:238 -/
def freeHead (n : Nat) : Nat := pure n + 1
/-- makespecialusedobjectsize, Db/dballoc.h:241 -/
def specialHead (n : Nat) : Nat := pure n + 3
/-- makeusedobjectsizeprevused, Db/dballoc.h:239 -/
def usedHead (n : Nat) : Nat := pure n
/-- makeusedobjectsizeprevfree, Db/dballoc.h:240 -/
def usedHeadPrevFree (n : Nat) : Nat := pure n + 2
/-- getusedobjectsize, Db/dballoc.h:232 -/
def usedSize (w : Nat) : Nat :=
  if pure w ≤ minObj then minObj else if pure w % 8 ≠ 0 then pure w + 4 else pure w

/-- the loop of wg_freebuckets_index over the buckets of varying size -/
def idxF (size : Nat) : Nat → Nat → Nat → Option Nat
  | 0, _, _ => none
  | k + 1, i, cur => if size < cur then some (256 + i) else idxF size k (i + 1) (cur * 2)

/-- wg_freebuckets_index, Db/dballoc.c:1194-1205; `none` for -1 -/
def idx (size : Nat) : Option Nat := if size < 256 then some size else idxF size 32 0 512

/-! ### Free lists -/

/-- An object becomes the first element of the free list for its size: Db/dballoc.c:1371-1378, and
likewise 711-718 and 1168-1176.  `hb` is the offset of `freebuckets`. -/
def push (hb : Nat) (s : St) (o n i : Nat) : St :=
  let fl := s.bkt i
  let s := if fl ≠ 0 then s.store (fl + 16) o else s
  let s := ((s.store o (freeHead n)).store (o + n - 8) (freeHead n)).store (o + 8) fl
  let s := s.store (o + 16) (hb + 8 * i)
  { s with bkt := upd s.bkt i o }

/-- an object is removed from its free list, Db/dballoc.c:1272-1287 and 1313-1328 -/
def unlink (s : St) (o i : Nat) : St :=
  let nx := s.mem (o + 8)
  let pv := s.mem (o + 16)
  if s.bkt i = o then
    let s := { s with bkt := upd s.bkt i nx }
    if nx ≠ 0 then s.store (nx + 16) pv else s
  else
    let s := s.store (pv + 8) nx
    if nx ≠ 0 then s.store (nx + 16) pv else s

/-- the first element is taken from a free list, Db/dballoc.c:943-947, 1011-1015 -/
def pop (hb : Nat) (s : St) (i : Nat) : St :=
  let nx := s.mem (s.bkt i + 8)
  let s := { s with bkt := upd s.bkt i nx }
  if nx ≠ 0 then s.store (nx + 16) (hb + 8 * i) else s

/-- the mark for a used predecessor is set in an ordinary used object, Db/dballoc.c:952-953, 1356-1357 -/
def markPrevUsed (s : St) (x : Nat) : St :=
  if s.mem x % 2 = 0 then s.store x (usedHead (s.mem x)) else s

/-- the mark for a free predecessor is set in an ordinary used object, Db/dballoc.c:1339-1342, 1363-1364 -/
def markPrevFree (s : St) (x : Nat) : St :=
  if s.mem x % 2 = 0 then s.store x (usedHeadPrevFree (s.mem x)) else s

/-- an object becomes the designated victim, Db/dballoc.c:742-745, 983-986, 1296-1299, 1333-1337, 1350-1353 -/
def setDv (s : St) (o n : Nat) : St :=
  let s := (s.store o (specialHead n)).store (o + 8) 1
  { s with dv := o, dvsz := n }

/-- split_free, Db/dballoc.c:1109-1181; `none` for an error.  The object is the first one of its list. -/
def splitFree (hb : Nat) (s : St) (n i : Nat) : Option St :=
  let o := s.bkt i
  let h := s.mem o
  if h % 4 ≠ 1 then none
  else
    let old := pure h
    let nx := s.mem (o + 8)
    let s := s.store o (usedHead n)
    let s := { s with bkt := upd s.bkt i nx }
    match idx (old - n) with
    | none => none
    | some j => some (push hb s (o + n) (old - n) j)

/-! ### New subareas -/

/-- the next number divisible by 8, Db/dballoc.c:369-372 -/
def align8 (n : Nat) : Nat := (n + 7) / 8 * 8

/-- alloc_db_segmentchunk, Db/dballoc.c:357-381 -/
def chunk (s : St) (n : Nat) : Option (Nat × St) :=
  if align8 (s.free + n) ≥ s.size then none
  else some (s.free, { s with free := align8 (s.free + n) })

/-- init_subarea_freespace, Db/dballoc.c:684-759; `first` for the subarea with number 0.  The size is
rounded down as in init_db_subarea (Db/dballoc.c:339-341). -/
def freespace (hb : Nat) (s : St) (first : Bool) (off n : Nat) : Option St :=
  let n := n - n % 32
  let s? := if !first && s.dv ≠ 0 && s.dvsz ≥ minObj then (idx s.dvsz).map fun i => push hb s s.dv s.dvsz i
            else some s
  s?.map fun s =>
    let s := (((s.store off (specialHead 32)).store (off + 8) 0).store (off + 16) 0).store (off + 24) 32
    let e := off + n - 32
    let s := (((s.store e (specialHead 32)).store (e + 8) 0).store (e + 16) 0).store (e + 24) 32
    setDv s (off + 32) (n - 64)

/-- a larger power of two, Db/dballoc.c:1079 -/
def grow (min : Nat) : Nat → Nat → Nat
  | 0, n => n
  | k + 1, n => if n < min then grow min k (2 * n) else n

/-- the attempts with smaller and smaller sizes, Db/dballoc.c:1082-1089 -/
def tryChunk (s : St) (min : Nat) : Nat → Nat → Option (Nat × Nat × St)
  | 0, _ => none
  | k + 1, n => if n < min then none
      else match chunk s n with
        | some (off, s) => some (off, n, s)
        | none => tryChunk s min k (n / 2)

/-- extend_varlen_area, Db/dballoc.c:1055-1097; `none` if there is no more space -/
def extend (hb : Nat) (s : St) (minbytes : Nat) : Option St :=
  if s.subs.length ≥ 64 then none
  else
    let last := (s.subs.getLast?.getD (0, 8192)).2
    let minsize := max (minbytes + 8 + 64) 8192
    (tryChunk s minsize 64 (grow minsize 64 (2 * last))).bind fun (off, n, s) =>
      freespace hb { s with subs := s.subs ++ [(off, n)] } false off n

/-! ### wg_alloc_gints -/

/-- result of an allocation: an offset, 0 (with the state reached), or undefined behaviour -/
inductive ARes where
  | ok (o : Nat) (s : St)
  | fail (s : St)
  | ub

/-- the object at the head of list `i` is split, Db/dballoc.c:961-966, 997-1002, 1021-1027 -/
def takeSplit (hb : Nat) (s : St) (wanted u i : Nat) : ARes :=
  match splitFree hb s u i with
  | none => .fail s
  | some s' => .ok (s.bkt i) (s'.store (s.bkt i) (usedHead wanted))

/-- can the first element of list `i` be split, Db/dballoc.c:958-959, 994-995 -/
def canSplit (s : St) (u i : Nat) : Bool := s.bkt i ≠ 0 && pure (s.mem (s.bkt i)) ≥ u + minObj

/-- Db/dballoc.c:957-968: the next three lists -/
def near (s : St) (u : Nat) : Option Nat := (List.range' (u + 1) 3).find? fun i => i < 256 && canSplit s u i

/-- Db/dballoc.c:993-1004: lists for exact sizes -/
def exact (s : St) (u : Nat) : Option Nat := (List.range' (u + 1) (256 - (u + 1))).find? fun i => canSplit s u i

/-- Db/dballoc.c:1006-1030: the lists from `i` on -/
def var (s : St) (u i : Nat) : Option Nat :=
  (List.range' i (288 - i)).find? fun i => s.bkt i ≠ 0 && (pure (s.mem (s.bkt i)) == u || canSplit s u i)

/-- size of the object for the wanted number of bytes, Db/dballoc.c:932-938 -/
def usedBytes (wanted : Nat) : Nat :=
  if wanted ≤ minObj then minObj else if wanted % 8 ≠ 0 then wanted + 4 else wanted

/-- wg_alloc_gints up to the extension of the area, Db/dballoc.c:931-1030; `none` if nothing suitable was found -/
def allocHere (hb : Nat) (s : St) (wanted : Nat) : Option ARes :=
  let u := usedBytes wanted
  if u < 256 ∧ s.bkt u ≠ 0 then
    let res := s.bkt u
    let s := pop hb s u
    let s := s.store res (usedHead wanted)
    some (.ok res (markPrevUsed s (res + u)))
  else match near s u with
  | some i => some (takeSplit hb s wanted u i)
  | none =>
    if s.dv ≠ 0 ∧ u = s.dvsz then
      some (.ok s.dv ({ s with dv := 0, dvsz := 0 }.store s.dv (usedHead wanted)))
    else if s.dv ≠ 0 ∧ u + minObj ≤ s.dvsz then
      some (.ok s.dv ((setDv s (s.dv + u) (s.dvsz - u)).store s.dv (usedHead wanted)))
    else match exact s u with
    | some i => some (takeSplit hb s wanted u i)
    | none => match idx u with
      | none => some .ub
      | some i => match var s u i with
        | some i =>
          if pure (s.mem (s.bkt i)) = u then
            some (.ok (s.bkt i) ((pop hb s i).store (s.bkt i) (usedHead wanted)))
          else some (takeSplit hb s wanted u i)
        | none => none

/-- wg_alloc_gints, Db/dballoc.c:919-1041; the recursive calls come after an extension of the area, of
which there are at most 63 -/
def allocF (hb : Nat) : Nat → St → Nat → ARes
  | 0, _, _ => .ub
  | k + 1, s, wanted => match allocHere hb s wanted with
    | some r => r
    | none => match extend hb s (usedBytes wanted) with
      | none => .fail s
      | some s => allocF hb k s wanted

/-- wg_alloc_gints for `nr` words, Db/dballoc.c:919-1041 -/
def alloc (hb : Nat) (s : St) (nr : Nat) : ARes := allocF hb 65 s (8 * nr)

/-! ### wg_free_object -/

/-- result of wg_free_object: 0, a negative number (given without its sign), or undefined behaviour -/
inductive FRes where
  | ok (s : St)
  | err (code : Nat)
  | ub

/-- the last part, Db/dballoc.c:1347-1379 -/
def freeStore (hb : Nat) (s : St) (o n : Nat) : FRes :=
  if n > s.dvsz then
    let dv := s.dv
    let dvsz := s.dvsz
    let s := setDv s o n
    let s := markPrevUsed s (o + n)
    if dv = 0 then .ok s
    else
      let s := markPrevFree s (dv + dvsz)
      match idx dvsz with
      | none => .ub
      | some i => .ok (push hb s dv dvsz i)
  else match idx n with
    | none => .ub
    | some i => .ok (push hb s o n i)

/-- joining with the following object, Db/dballoc.c:1303-1343 -/
def freeNext (hb : Nat) (s : St) (o n : Nat) : FRes :=
  let x := o + n
  let h := s.mem x
  if h % 4 = 1 then
    match idx (pure h) with
    | none => .ub
    | some i => freeStore hb (unlink s x i) o (n + pure h)
  else if h % 4 = 3 ∧ x = s.dv then .ok (setDv s o (n + s.dvsz))
  else freeStore hb (markPrevFree s x) o n

/-- wg_free_object, Db/dballoc.c:1214-1380.  The comparison in line 1266 takes the offset of the previous
object for its first word: `pure p = ps`. -/
def freeObj (hb : Nat) (s : St) (o : Nat) : FRes :=
  let h := s.mem o
  if h % 4 = 1 then .err 2
  else
    let n := usedSize h
    if n < minObj then .err 3
    else if h % 4 = 2 then
      let ps := pure (s.mem (o - 8))
      if o < ps ∨ ps % 8 ≠ 0 then .ub
      else
        let p := o - ps
        if s.mem p % 4 ≠ 1 ∨ pure p ≠ ps then .err 4
        else match idx ps with
          | none => .ub
          | some i => freeNext hb (unlink s p i) p (n + ps)
    else if s.dv + s.dvsz = o then .ok (setDv s s.dv (n + s.dvsz))
    else freeNext hb s o n

/-! ### A new area -/

/-- The first subarea, Db/dballoc.c:151-167: `mem` is what the segment happens to contain, `free` and `size`
are the bounds of the unused part of the segment. -/
def init (hb : Nat) (mem : Nat → Nat) (free size : Nat) : Option St :=
  let s : St := ⟨mem, fun _ => 0, 0, 0, [], free, size⟩
  (chunk s 8192).bind fun (off, s) => freespace hb { s with subs := [(off, 8192)] } true off 8192

end Gkc.Alloc
