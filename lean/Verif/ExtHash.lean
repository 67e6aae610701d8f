import Verif.JsonQuery
/-
The table of pairs of numbers that grows by extendible hashing (Db/dbhash.c:586-855); it translates offsets when a log is replayed (Db/dblog.c).

Simplified: there is always memory; buckets are numbered in the order they are made; places of the directory past its end are not looked at.
-/
namespace Gkc.Eh
open Gkc.Jq (rehash)

/-- ginthash_bucket, Db/dbhash.c:71-76: the local level and the filled places -/
structure Bucket where
  level : Nat
  items : List (Nat × Nat)

/-- ext_ginthash, Db/dbhash.c:82-86: level, directory, and the buckets made so far -/
structure Tbl where
  level : Nat
  dir : Nat → Option Nat
  heap : Nat → Bucket
  next : Nat

/-- GINTHASH_BUCKETCAP, Db/dbhash.c:57; there is room for one more -/
def cap : Nat := 7

/-- GINTHASH_MAXLEVEL, Db/dbhash.c:65 -/
def maxLevel : Nat := 23

/-- wg_ginthash_init, Db/dbhash.c:601-614 -/
def init : Tbl := ⟨1, fun _ => none, fun _ => ⟨0, []⟩, 0⟩

/-- grow_ginthash, Db/dbhash.c:706-737: the pointers are copied to the new half -/
def grow (t : Tbl) : Option Tbl :=
  if t.level + 1 ≥ maxLevel then none
  else some { t with level := t.level + 1, dir := fun i => if i < 2 ^ t.level then t.dir i else t.dir (i - 2 ^ t.level) }

/-- the loop over the directory, Db/dbhash.c:804-811: `n` more rounds from `j`; the pointer there has to be the one to the old bucket -/
def repoint (old new base s : Nat) : Nat → Nat → (Nat → Option Nat) → Option (Nat → Option Nat)
  | 0, _, d => some d
  | n + 1, j, d =>
    let k := (j <<< s) ||| base
    if d k = some old then repoint old new base s n (j + 1) (fun i => if i = k then some new else d i) else none

/-- the part of ginthash_splitbucket after the table has grown, Db/dbhash.c:771-813.  The pairs go to the new bucket from the last to the first.  A bucket that is
split is never empty. -/
def splitIn (t : Tbl) (b : Nat) : Option (Tbl × Nat) :=
  let lv := (t.heap b).level
  match (t.heap b).items with
  | [] => none
  | (k0, v0) :: r =>
    let msb := 2 ^ lv
    let low := rehash k0 % msb
    let up (kv : Nat × Nat) : Bool := (rehash kv.1).testBit lv
    let heap (i : Nat) : Bucket :=
      if i = t.next then ⟨lv + 1, (((k0, v0) :: r).filter up).reverse⟩
      else if i = b then ⟨lv + 1, ((k0, v0) :: r).filter (!up ·)⟩
      else t.heap i
    if lv + 1 = t.level then
      some (⟨t.level, fun i => if i = msb ||| low then some t.next else t.dir i, heap, t.next + 1⟩, t.next)
    else (repoint b t.next (msb ||| low) (lv + 1) (2 ^ (t.level - (lv + 1))) 0 t.dir).map fun d =>
      (⟨t.level, d, heap, t.next + 1⟩, t.next)

/-- ginthash_splitbucket, Db/dbhash.c:756-814: the new table and the new bucket -/
def split (t : Tbl) (b : Nat) : Option (Tbl × Nat) :=
  if (t.heap b).level = t.level then
    match grow t with
    | none => none
    | some t' => splitIn t' b
  else splitIn t b

/-- the loop of wg_ginthash_addkey, Db/dbhash.c:638-647; `n` rounds are enough -/
def settle : Nat → Tbl → Nat → Tbl × Int
  | 0, t, _ => (t, -1)
  | n + 1, t, b =>
    if (t.heap b).items.length > cap then
      match split t b with
      | none => (t, -1)
      | some (t', nb) => settle n t' (if (t'.heap nb).items.length > cap then nb else b)
    else (t, 0)

/-- a pair is put at the end of a bucket: add_to_bucket, Db/dbhash.c:819-832 -/
def put (t : Tbl) (b k v : Nat) : Tbl :=
  { t with heap := fun i => if i = b then ⟨(t.heap b).level, (t.heap b).items ++ [(k, v)]⟩ else t.heap i }

/-- wg_ginthash_addkey, Db/dbhash.c:621-650: `none` if there is no room in the arrays of the bucket and something else is overwritten -/
def add (t : Tbl) (k v : Nat) : Option (Tbl × Int) :=
  let h := rehash k % 2 ^ t.level
  match t.dir h with
  | none => some (⟨t.level, fun i => if i = h then some t.next else t.dir i,
      fun i => if i = t.next then ⟨t.level, [(k, v)]⟩ else t.heap i, t.next + 1⟩, 0)
  | some b => if (t.heap b).items.length > cap then none else some (settle maxLevel (put t b k v) b)

/-- wg_ginthash_getkey, Db/dbhash.c:657-671 -/
def get (t : Tbl) (k : Nat) : Option Nat :=
  match t.dir (rehash k % 2 ^ t.level) with
  | none => none
  | some b => ((t.heap b).items.find? (·.1 == k)).map (·.2)

/-- translate_offset, Db/dblog.c:491-498 -/
def translate (t : Tbl) (k : Nat) : Nat := (get t k).getD k

end Gkc.Eh
