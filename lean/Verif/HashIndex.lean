import Mathlib.Data.List.Basic
/-
The hash index: wg_decode_for_hashing, hash_bytes, find_idxhash_bucket, wg_idxhash_store, wg_idxhash_remove and wg_idxhash_find (Db/dbhash.c:289-584),
hash_add_row, hash_remove_row, hash_recurse, hash_extend_prefix and wg_search_hash (Db/dbindex.c:1474-1602, 1693-1709).

Simplified: the linked lists (the chain of buckets, the rows of a bucket) are lists, a row is its offset; there is always memory.  A column is
given as what its word stands for, as the wg_decode functions give it (C01 to C03, C51).
-/
namespace Gkc.Hx

/-- the values of a column.  A double is its eight bytes, and so is a fixed point number, which is hashed as a double. -/
inductive Val where
  | null
  | record (off : BitVec 64)
  | int (i : Int)
  | double (bits : BitVec 64)
  | fix (bits : BitVec 64)
  | str (s : List UInt8) (lang : Option (List UInt8))
  | uri (s : List UInt8) (pre : Option (List UInt8))
  | xml (s : List UInt8) (xsd : Option (List UInt8))
  | char (c : BitVec 32)
  | date (d : BitVec 32)
  | time (t : BitVec 32)
  | var (n : BitVec 32)
  | blob (s : List UInt8)
  | anon (n : BitVec 32)
  deriving DecidableEq

/-- a column of a row: a value, or a record that is an array (is_schema_array) with its members -/
inductive Col where
  | val (v : Val)
  | arr (off : BitVec 64) (l : List Val)
  deriving DecidableEq

/-- the array as a value is the record -/
def Col.word : Col → Val
  | .val v => v
  | .arr off _ => .record off

/-- the bytes of a number in memory, the lowest first -/
def le : Nat → Nat → List UInt8
  | 0, _ => []
  | n + 1, x => UInt8.ofNat (x % 256) :: le n (x / 256)

/-- CONCAT_FOR_HASHING, Db/dbhash.c:289-300 -/
def concat (s : List UInt8) : Option (List UInt8) → List UInt8
  | none => s
  | some e => e ++ 0 :: s

/-- wg_decode_for_hashing, Db/dbhash.c:313-405: the number of the type and the bytes.  An integer goes through a C int (336). -/
def field : Val → Option (List UInt8)
  | .null => some (1 :: le 8 0)
  | .record off => some (2 :: le 8 off.toNat)
  | .int i => some (3 :: le 4 (i % 2 ^ 32).toNat)
  | .double b => some (4 :: le 8 b.toNat)
  | .fix b => some (10 :: le 8 b.toNat)
  | .str s _ => some (5 :: s)
  | .uri s p => some (7 :: concat s p)
  | .xml s p => some (6 :: concat s p)
  | .char c => some (9 :: le 4 c.toNat)
  | .date d => some (11 :: le 4 d.toNat)
  | .time t => some (12 :: le 4 t.toNat)
  | .var n => some (14 :: le 4 n.toNat)
  | .blob _ => none
  | .anon _ => none

/-- a char, which has a sign, as a 64-bit word -/
def signed (b : UInt8) : UInt64 := if b < 128 then b.toUInt64 else b.toUInt64 - 256

/-- hash_bytes, Db/dbhash.c:410-420 -/
def hashBytes (size : Nat) (data : List UInt8) : Nat :=
  (data.foldl (fun h b => signed b + (h <<< (6 : UInt64)) + (h <<< (16 : UInt64)) - h) (0 : UInt64)).toNat % size

/-- the buckets: the key and the rows -/
abbrev Chain := List (List UInt8 × List Nat)

/-- the table: the length of the array and the chains -/
structure Table where
  size : Nat
  chain : Nat → Chain

/-- wg_create_hash, Db/dballoc.c:1430-1437 -/
def create (size : Nat) : Table := ⟨size, fun _ => []⟩

/-- a chain is replaced -/
def Table.set (t : Table) (h : Nat) (c : Chain) : Table := { t with chain := fun j => if j = h then c else t.chain j }

/-- find_idxhash_bucket, Db/dbhash.c:428-446: the rows of the first bucket with this key -/
def bucket (key : List UInt8) : Chain → Option (List Nat)
  | [] => none
  | (k, l) :: c => if k = key then some l else bucket key c

/-- a row is put at the front of the rows of that bucket, Db/dbhash.c:505-511 -/
def addTo (key : List UInt8) (r : Nat) : Chain → Chain
  | [] => []
  | (k, l) :: c => if k = key then (k, r :: l) :: c else (k, l) :: addTo key r c

/-- wg_idxhash_store, Db/dbhash.c:454-514: a new bucket is put at the front of the chain -/
def store (t : Table) (key : List UInt8) (r : Nat) : Table :=
  let h := hashBytes t.size key
  match bucket key (t.chain h) with
  | some _ => t.set h (addTo key r (t.chain h))
  | none => t.set h ((key, [r]) :: t.chain h)

/-- the loop of wg_idxhash_remove and its end, Db/dbhash.c:538-560: the first cell with the row is taken out, and the bucket if it has become empty -/
def removeFrom (key : List UInt8) (r : Nat) : Chain → Option Chain
  | [] => none
  | (k, l) :: c =>
    if k = key then
      if r ∈ l then some (if (l.erase r).isEmpty then c else (k, l.erase r) :: c) else none
    else (removeFrom key r c).map ((k, l) :: ·)

/-- wg_idxhash_remove, Db/dbhash.c:522-561 -/
def remove (t : Table) (key : List UInt8) (r : Nat) : Table × Int :=
  let h := hashBytes t.size key
  match removeFrom key r (t.chain h) with
  | some c => (t.set h c, 0)
  | none => (t, -1)

/-- wg_idxhash_find, Db/dbhash.c:569-584: no bucket is the empty list -/
def find (t : Table) (key : List UInt8) : List Nat :=
  (bucket key (t.chain (hashBytes t.size key))).getD []

/-- the next value is put after the prefix, Db/dbindex.c:1579-1598 -/
def join (pre b : List UInt8) : List UInt8 := if pre.isEmpty then b else pre ++ 0 :: b

/-- the loop over an array, Db/dbindex.c:1529-1536: it ends at the first error -/
def through {α : Type} (f : Val → α → α × Int) : List Val → α → α × Int
  | [], s => (s, 0)
  | v :: vs, s => if (f v s).2 ≠ 0 then f v s else through f vs (f v s).1

/-- hash_recurse and hash_extend_prefix, Db/dbindex.c:1515-1602; `op` is what is done with a complete key -/
def recurse {α : Type} (op : List UInt8 → α → α × Int) (expand : Bool) : List Col → List UInt8 → α → α × Int
  | [], pre, s => op pre s
  | c :: cs, pre, s =>
    let ext (v : Val) (s : α) : α × Int := match field v with
      | none => (s, -1)
      | some b => recurse op expand cs (join pre b) s
    match expand, c with
    | true, .arr _ l => through ext l s
    | _, c => ext c.word s

/-- hash_add_row, Db/dbindex.c:1474-1484 -/
def addRow (expand : Bool) (t : Table) (r : Nat) (cols : List Col) : Table × Int :=
  recurse (fun k t => (store t k r, 0)) expand cols [] t

/-- hash_remove_row, Db/dbindex.c:1491-1501 -/
def removeRow (expand : Bool) (t : Table) (r : Nat) (cols : List Col) : Table × Int :=
  recurse (fun k t => remove t k r) expand cols [] t

/-- wg_search_hash, Db/dbindex.c:1693-1709: the rows, or an error -/
def search (t : Table) (vals : List Val) : Option (List Nat) :=
  match recurse (fun k _ => (find t k, 0)) false (vals.map .val) [] [] with
  | (l, 0) => some l
  | _ => none

end Gkc.Hx
