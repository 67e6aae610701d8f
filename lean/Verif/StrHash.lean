/-
Names: strings, uris and blobs are stored once and found again through a hash table
(Db/dbdata.c:2934-3226, 3280-3376, Db/dbhash.c:162-225).

Simplified: a word is given by its segment and offset (that encoding words and taking them apart
are inverse is C01-C05), memory holds whole string objects, the allocators are any functions that
give unused places or fail.  Strings that are freed again (wg_free_encoded) and NULL in the place of
a string are not in the model.
-/
namespace Gkc.StrHash

/-- a byte -/
abbrev Byte := BitVec 8

/-- WG_STRTYPE, WG_XMLLITERALTYPE, WG_URITYPE, WG_BLOBTYPE; Db/dbdata.h -/
inductive Ty where
  | str
  | xml
  | uri
  | blob
  deriving DecidableEq

/-- What is stored: the type, the bytes with the terminating zero (blobs have none), and the
language, type or prefix (`extrastr`, without its zero). -/
structure Key where
  ty : Ty
  data : List Byte
  extra : Option (List Byte)
  deriving DecidableEq

/-- A word for a string: relative to the base, which is the attached knowledge base or, if there is
none, the database itself; `loc`: it lies in the database that has a knowledge base attached
(encode_kb_offset, Db/dbdata.h:472-476); `short`: in the area of short strings. -/
structure Ref where
  loc : Bool
  short : Bool
  off : Nat
  deriving DecidableEq

/-- a string object, Db/dbdata.h:655-684; `next` is LONGSTR_HASHCHAIN_POS -/
structure Obj where
  ty : Ty
  data : List Byte
  extra : Option Ref
  next : Option Nat
  id : Nat

/-- the part of a database that holds strings -/
structure Seg where
  /-- strhash_area_header.arraylength -/
  size : Nat
  /-- the hash array -/
  tbl : Nat → Option Nat
  /-- longstr_area_header -/
  obj : Nat → Option Obj
  /-- the area of short strings, with the terminating zero -/
  short : Nat → Option (List Byte)
  /-- longstr_count -/
  count : Nat
  /-- urilist -/
  uris : List Ref

/-- a new database, Db/dballoc.c:124-126, 467-510 -/
def Seg.empty (n : Nat) : Seg := ⟨n, fun _ => none, fun _ => none, fun _ => none, 0, []⟩

/-- a database, perhaps with a knowledge base attached -/
structure Db where
  seg : Seg
  kb : Option Seg

/-- db_to_kb, Db/dbdata.h:479 -/
def Db.base (db : Db) : Seg := match db.kb with
  | some k => k
  | none => db.seg

/-- encode_kb_offset, Db/dbdata.h:472-476 -/
def Db.ref (db : Db) (short : Bool) (o : Nat) : Ref := ⟨db.kb.isSome, short, o⟩

/-- the segment a word points into; `none`: words for the other segment, when there is no other -/
def Db.segOf (db : Db) (r : Ref) : Option Seg := if r.loc then db.kb.map fun _ => db.seg else some db.base

/-- the bytes a word points to -/
def Seg.bytes (g : Seg) (r : Ref) : Option (List Byte) := if r.short then g.short r.off else (g.obj r.off).map Obj.data

/-- wg_decode_unistr, Db/dbdata.c:3280-3304, as a C string; `none`: nothing is stored there -/
def Db.cstr (db : Db) (r : Ref) : Option (List Byte) :=
  ((db.segOf r).bind (·.bytes r)).map (·.takeWhile (· != 0))

/-! ### Hashing -/

/-- one round, Db/dbhash.c:170; `char` is signed -/
def sdbm (h : BitVec 64) (c : Byte) : BitVec 64 := c.signExtend 64 + (h <<< 6) + (h <<< 16) - h

/-- wg_hash_typedstr_sum, Db/dbhash.c:162-179 -/
def hashSum (k : Key) : BitVec 64 := (k.extra.getD []).foldl sdbm (k.data.foldl sdbm 0)

/-- the place in the hash array, Db/dbdata.c:3070, 3086; the length of the array is not zero -/
def slot (g : Seg) (k : Key) : Nat := (hashSum k).toNat % g.size

/-- wg_right_strhash_bucket, Db/dbhash.c:206-225; `none`: the word of the language, type or prefix
points nowhere -/
def right (db : Db) (ob : Obj) (k : Key) : Option Bool :=
  if ob.ty ≠ k.ty then some false
  else if ob.data.length ≠ k.data.length then some false
  else if ob.data ≠ k.data then some false
  else match ob.extra, k.extra with
    | none, none => some true
    | some r, some e => (db.cstr r).map (fun s => decide (s = e))
    | _, _ => some false

/-- wg_find_strhash_bucket, Db/dbhash.c:188-199, in the segment `g` with words read in `db`; `none`:
undefined.  The first number bounds the steps, there are never more objects than `longstr_count`. -/
def findFrom (db : Db) (g : Seg) (k : Key) : Nat → Option Nat → Option (Option Nat)
  | _, none => some none
  | 0, some _ => none
  | n + 1, some o => match g.obj o with
    | none => none
    | some ob => match right db ob k with
      | none => none
      | some true => some (some o)
      | some false => findFrom db g k n ob.next

/-- from the hash array -/
def find (db : Db) (g : Seg) (k : Key) : Option (Option Nat) := findFrom db g k g.count (g.tbl (slot g k))

/-! ### Storing -/

/-- The allocators: for string objects, short strings and list cells.  They give a place not in use
or fail. -/
structure Al where
  long : Db → Option Nat
  short : Db → Option Nat
  cell : Db → Bool
  long_new : ∀ db o, long db = some o → db.seg.obj o = none
  short_new : ∀ db o, short db = some o → db.seg.short o = none

/-- the object gets its place, Db/dbdata.c:3116-3133; it is not in the hash table yet -/
def Db.reserve (db : Db) (o : Nat) (k : Key) : Db :=
  { db with seg := { db.seg with obj := fun j => if j = o then some ⟨k.ty, k.data, none, none, 0⟩ else db.seg.obj j } }

/-- the other fields are stored and the object is put in front of the chain `old`, Db/dbdata.c:3156-3193 -/
def Db.link (db : Db) (o : Nat) (k : Key) (ext : Option Ref) (old : Option Nat) : Db :=
  { db with seg := { db.seg with
      obj := fun j => if j = o then some ⟨k.ty, k.data, ext, old, db.seg.count⟩ else db.seg.obj j
      tbl := fun i => if i = slot db.seg k then some o else db.seg.tbl i
      count := db.seg.count + 1 } }

/-- a uri is put in the list of uris, Db/dbdata.c:3211-3219 -/
def Db.listUri (db : Db) (r : Ref) : Db := { db with seg := { db.seg with uris := r :: db.seg.uris } }

/-- a database and a word, or `none` for WG_ILLEGAL -/
abbrev Res := Db × Option Ref

/-- the search in the attached knowledge base, Db/dbdata.c:3065-3079 -/
def findKb (db : Db) (k : Key) : Option (Option Nat) :=
  match db.kb with
  | none => some none
  | some g => find ⟨g, none⟩ g k

/-- the language, type or prefix is stored, Db/dbdata.c:3135-3158; `some (db, none)`: out of memory -/
def storeExtra (ext : Db → List Byte → Option Res) (db : Db) (k : Key) : Option (Db × Option (Option Ref)) :=
  match k.extra with
  | none => some (db, some none)
  | some e => match ext db e with
    | none => none
    | some (d, none) => some (d, none)
    | some (d, some r) => some (d, some (some r))

/-- a uri is put in the list of uris, Db/dbdata.c:3208-3223; if there is no memory for that, the
string stays stored -/
def finish (al : Al) (db : Db) (k : Key) (r : Ref) : Res :=
  if k.ty = .uri then
    if al.cell db then (db.listUri r, some r) else (db, none)
  else (db, some r)

/-- a new string, Db/dbdata.c:3116-3223.  The chain `old` (hasharrel) was read before the language,
type or prefix is stored. -/
def create (al : Al) (ext : Db → List Byte → Option Res) (db : Db) (k : Key) : Option Res :=
  match al.long db with
  | none => some (db, none)
  | some o => match storeExtra ext (db.reserve o k) k with
    | none => none
    | some (db2, none) => some (db2, none)
    | some (db2, some x) => some (finish al (db2.link o k x (db.seg.tbl (slot db.seg k))) k (db.ref false o))

/-- find_create_longstr, Db/dbdata.c:3039-3226; `ext` stores the language, type or prefix -/
def findCreate (al : Al) (ext : Db → List Byte → Option Res) (db : Db) (k : Key) : Option Res :=
  match findKb db k with
  | none => none
  | some (some o) => some (db, some ⟨false, false, o⟩)
  | some none => match find db db.seg k with
    | none => none
    | some (some o) => some (db, some (db.ref false o))
    | some none => create al ext db k

/-- a string without language of less than 32 characters is stored as a short string, always anew,
Db/dbdata.c:2970-2998 -/
def encodeShort (al : Al) (db : Db) (data : List Byte) : Res :=
  match al.short db with
  | none => (db, none)
  | some o => ({ db with seg := { db.seg with short := fun j => if j = o then some data else db.seg.short j } }, some (db.ref true o))

/-- is the key stored as a short string? Db/dbdata.c:2970, SHORTSTR_SIZE in Db/dballoc.h:172 -/
def isShort (k : Key) : Bool := k.ty = .str && k.extra.isNone && decide (k.data.length ≤ 32)

/-- wg_encode_str(db,extrastr,NULL), Db/dbdata.c:3136 -/
def encodeExtra (al : Al) (db : Db) (e : List Byte) : Option Res :=
  let k : Key := ⟨.str, e ++ [0], none⟩
  if isShort k then some (encodeShort al db k.data) else findCreate al (fun d _ => some (d, none)) db k

/-- wg_encode_unistr, wg_encode_uri, wg_encode_uniblob, Db/dbdata.c:2199-2235, 2934-3036 -/
def encode (al : Al) (db : Db) (k : Key) : Option Res :=
  if isShort k then some (encodeShort al db k.data) else findCreate al (encodeExtra al) db k

/-- one after another; `none`: undefined -/
def encodeAll (al : Al) : Db → List Key → Option (Db × List (Option Ref))
  | db, [] => some (db, [])
  | db, k :: ks => (encode al db k).bind fun (d, r) => (encodeAll al d ks).map fun (d', rs) => (d', r :: rs)

/-- what a word stands for: wg_get_encoded_type, wg_decode_unistr, wg_decode_unistr_len and
wg_decode_unistr_lang, Db/dbdata.c:3280-3376 -/
def Db.decode (db : Db) (r : Ref) : Option Key :=
  match db.segOf r with
  | none => none
  | some g =>
    if r.short then (g.short r.off).map fun s => ⟨.str, s, none⟩
    else match g.obj r.off with
      | none => none
      | some ob => match ob.extra with
        | none => some ⟨ob.ty, ob.data, none⟩
        | some x => (db.cstr x).map fun s => ⟨ob.ty, ob.data, some s⟩

/-- a new database with the knowledge base attached, the kb_db field set at Db/dballoc.c:119,
Db/dbdata.h:467 -/
def attach (kb : Seg) (n : Nat) : Db := ⟨Seg.empty n, some kb⟩

end Gkc.StrHash
