/-
Field encoding of WhiteDB as used by GKC: `Db/dbdata.h` lines 320-480 and
`Db/dbdata.c` lines 1406-2922.

A field is a 64-bit word (`gint`, `config.h` HAVE_64BIT_GINT).  `BitVec 64` is used for
`gint`, `BitVec 32` for C `int`, `BitVec 8` for C `char`.
-/
namespace Gkc.Encode

/-- `gint` / `wg_int`: Db/dballoc.h (64-bit `ptrdiff_t`). -/
abbrev Word := BitVec 64

/-- Word-sized memory cells, addressed by absolute byte address.
`dbfetch`/`dbstore` Db/dballoc.h:203-204.
Simplification: a cell is addressed by its first byte; overlapping unaligned cells are not
represented (all cells used here are allocated 8 bytes aligned). -/
abbrev Mem := Word → Word

/-- Database handle: absolute address of its segment and, if a knowledge base segment is
attached, the address of that segment.  Db/dbdata.h:469 `db_get_kb_db`. -/
structure Db where
  base : Word
  kb   : Option Word

/-- `db_to_kb(db)`, Db/dbdata.h:479: the handle against which encoded offsets are relative. -/
def Db.toKb (db : Db) : Db :=
  match db.kb with
  | some k => { base := k, kb := none }
  | none   => db

/-- `dbfetch(db,offset)`, Db/dballoc.h:203. -/
def dbfetch (m : Mem) (db : Db) (off : Word) : Word := m (db.base + off)

/-- `dbstore(db,offset,data)`, Db/dballoc.h:204. -/
def dbstore (m : Mem) (db : Db) (off v : Word) : Mem :=
  fun a => if a = db.base + off then v else m a

/-- `encode_kb_offset(db,offset)`, Db/dbdata.h:472-475. -/
def encodeKbOffset (db : Db) (off : Word) : Word :=
  match db.kb with
  | some k => off + (db.base - k)
  | none   => off

/-! ### tags -/

/-- `fits_smallint`, Db/dbdata.h:336.  `<<` and `>>` on a signed 64-bit word; the shift of
a negative or overflowing value is taken as the machine shift (gcc semantics). -/
def fitsSmallint (i : Word) : Bool := (i <<< 3).sshiftRight 3 == i
/-- `encode_smallint`, Db/dbdata.h:337. -/
def encodeSmallint (i : Word) : Word := (i <<< 3) ||| 3#64
/-- `decode_smallint`, Db/dbdata.h:338. -/
def decodeSmallint (i : Word) : Word := i.sshiftRight 3
/-- `encode_fullint_offset`, Db/dbdata.h:345. -/
def encodeFullintOffset (i : Word) : Word := i ||| 1#64
/-- `decode_fullint_offset`, Db/dbdata.h:346. -/
def decodeFullintOffset (i : Word) : Word := i &&& ~~~ 3#64
/-- `encode_longstr_offset`, Db/dbdata.h:357. -/
def encodeLongstrOffset (i : Word) : Word := i ||| 4#64
/-- `decode_longstr_offset`, Db/dbdata.h:358. -/
def decodeLongstrOffset (i : Word) : Word := i &&& ~~~ 7#64
/-- `encode_fulldouble_offset`, Db/dbdata.h:363. -/
def encodeFulldoubleOffset (i : Word) : Word := i ||| 2#64
/-- `decode_fulldouble_offset`, Db/dbdata.h:364. -/
def decodeFulldoubleOffset (i : Word) : Word := i &&& ~~~ 7#64
/-- `encode_shortstr_offset`, Db/dbdata.h:369. -/
def encodeShortstrOffset (i : Word) : Word := i ||| 6#64
/-- `decode_shortstr_offset`, Db/dbdata.h:370. -/
def decodeShortstrOffset (i : Word) : Word := i &&& ~~~ 7#64
/-- `fits_var`, Db/dbdata.h:378. -/
def fitsVar (i : Word) : Bool := (i <<< 4).sshiftRight 4 == i
/-- `encode_var`, Db/dbdata.h:379. -/
def encodeVar (i : Word) : Word := (i <<< 4) ||| 7#64
/-- `decode_var`, Db/dbdata.h:380. -/
def decodeVar (i : Word) : Word := i.sshiftRight 4

/-- `isptr`, Db/dbdata.h:442. -/
def isptr (i : Word) : Bool := i != 0#64 && ((i &&& 3#64) != 3#64)
/-- `isdatarec`, Db/dbdata.h:444. -/
def isdatarec (i : Word) : Bool := (i &&& 7#64) == 0#64
/-- `isfullint`, Db/dbdata.h:445. -/
def isfullint (i : Word) : Bool := (i &&& 3#64) == 1#64
/-- `isfulldouble`, Db/dbdata.h:446. -/
def isfulldouble (i : Word) : Bool := (i &&& 7#64) == 2#64
/-- `isshortstr`, Db/dbdata.h:447. -/
def isshortstr (i : Word) : Bool := (i &&& 7#64) == 6#64
/-- `islongstr`, Db/dbdata.h:448. -/
def islongstr (i : Word) : Bool := (i &&& 7#64) == 4#64
/-- `issmallint`, Db/dbdata.h:450. -/
def issmallint (i : Word) : Bool := (i &&& 7#64) == 3#64
/-- `isvar`, Db/dbdata.h:452. -/
def isvar (i : Word) : Bool := (i &&& 15#64) == 7#64
/-- `isdate`, Db/dbdata.h:455. -/
def isdate (i : Word) : Bool := (i &&& 255#64) == 0x2f#64
/-- `istime`, Db/dbdata.h:456. -/
def istime (i : Word) : Bool := (i &&& 255#64) == 0x3f#64
/-- `isfixpoint`, Db/dbdata.h:454. -/
def isfixpoint (i : Word) : Bool := (i &&& 255#64) == 0x0f#64
/-- `isimmediatedata`, Db/dbdata.h:460. -/
def isimmediatedata (i : Word) : Bool := i == 0#64 || (!isptr i && !isfullint i)

/-- `WG_ILLEGAL`, Db/dbapi.h. -/
def WG_ILLEGAL : Word := 0xff#64

/-- Data types, Db/dbapi.h (numeric values in `DType.code`).  `bad` is the -1 answer. -/
inductive DType
  | null | record | int | double | str | xmlliteral | uri | blob | char | fixpoint
  | date | time | anonconst | var
  /-- any other number read from the type byte of a long string, or the error answer -1 -/
  | bad
  deriving DecidableEq, Repr

/-- The low byte of a long string's meta word as a type, Db/dbdata.c:1444 and Db/dbapi.h. -/
def DType.ofByte (b : Word) : DType :=
  if b = 5#64 then .str else if b = 6#64 then .xmlliteral
  else if b = 7#64 then .uri else if b = 8#64 then .blob else .bad

/-- `wg_get_encoded_type`, Db/dbdata.c:1406-1452.  LONGSTR_META_POS is 1 (Db/dbdata.h), so
the meta word is 8 bytes after the start of the string object. -/
def getEncodedType (m : Mem) (db : Db) (data : Word) : DType :=
  if data = 0#64 then .null
  else if (data &&& 3#64) = 3#64 then
    if isvar data then .var
    else if issmallint data then .int
    else
      let b := data &&& 255#64
      if b = 0x1f#64 then .char
      else if b = 0x0f#64 then .fixpoint
      else if b = 0x2f#64 then .date
      else if b = 0x3f#64 then .time
      else if b = 0x4f#64 then .str
      else if b = 0x07#64 then .var
      else if b = 0x5f#64 then .anonconst
      else .bad
  else
    let b := data &&& 7#64
    if b = 0#64 then .record
    else if b = 4#64 then
      DType.ofByte (dbfetch m db (decodeLongstrOffset data + 8#64) &&& 255#64)
    else if b = 6#64 then .str
    else if b = 2#64 then .double
    else if b = 1#64 then .int
    else if b = 5#64 then .int
    else .bad

/-! ### encoders and decoders -/

/-- `wg_encode_int`, Db/dbdata.c:1512-1552.  `alloc` is the answer of `alloc_word`
(0 = out of memory). Returns the encoded word and the memory. -/
def encodeInt (m : Mem) (db : Db) (alloc : Word) (x : Word) : Word × Mem :=
  if fitsSmallint x then (encodeSmallint x, m)
  else if alloc = 0#64 then (WG_ILLEGAL, m)
  else (encodeFullintOffset (encodeKbOffset db alloc), dbstore m db alloc x)

/-- `wg_decode_int`, Db/dbdata.c:1554-1565.  `none` is the error message path. -/
def decodeInt (m : Mem) (db : Db) (w : Word) : Option Word :=
  if issmallint w then some (decodeSmallint w)
  else if isfullint w then some (dbfetch m db (decodeFullintOffset w))
  else none

/-- `wg_encode_double`, Db/dbdata.c:1599-1640: the 64 bits of the double are stored in a
doubleword object.  The double itself is opaque. -/
def encodeDouble (m : Mem) (db : Db) (alloc : Word) (x : Word) : Word × Mem :=
  if alloc = 0#64 then (WG_ILLEGAL, m)
  else (encodeFulldoubleOffset (encodeKbOffset db alloc), dbstore m db alloc x)

/-- `wg_decode_double`, Db/dbdata.c:1642-1651. -/
def decodeDouble (m : Mem) (db : Db) (w : Word) : Option Word :=
  if isfulldouble w then some (dbfetch m db (decodeFulldoubleOffset w)) else none

/-- `wg_encode_record`, Db/dbdata.c:1897-1916 (offset of the record in its segment). -/
def encodeRecord (db : Db) (off : Word) : Word := encodeKbOffset db off

/-- `wg_decode_record`, Db/dbdata.c:1919-1927: absolute address of the record. -/
def decodeRecord (db : Db) (w : Word) : Word := db.base + w

/-- `wg_encode_char`, Db/dbdata.c:1569-1585 (char sign extended to `wg_int`). -/
def encodeChar (c : BitVec 8) : Word := ((c.signExtend 64) <<< 8) ||| 0x1f#64
/-- `wg_decode_char`, Db/dbdata.c:1588-1596. -/
def decodeChar (w : Word) : BitVec 8 := (w.sshiftRight 8).setWidth 8

/-- `wg_encode_date`, Db/dbdata.c:1691-1712 with CHECK undefined.  The shift is done on a
32-bit `int`, then the result is sign extended.  Shifting bits out of an `int` is undefined
in ISO C; the machine (gcc) result is modelled and `dateShiftUB` says when it happens. -/
def encodeDate (d : BitVec 32) : Word := ((d <<< 8) ||| 0x2f#32).signExtend 64
/-- `wg_decode_date`, Db/dbdata.c:1714-1725. -/
def decodeDate (w : Word) : Option (BitVec 32) :=
  if isdate w then some ((w.sshiftRight 8).setWidth 32) else none
/-- `wg_encode_time`, Db/dbdata.c:1727-1748 with CHECK undefined. -/
def encodeTime (d : BitVec 32) : Word := ((d <<< 8) ||| 0x3f#32).signExtend 64
/-- `wg_decode_time`, Db/dbdata.c:1750-1761 and `decode_time`, Db/dbdata.h:409. -/
def decodeTime (w : Word) : Option (BitVec 32) :=
  if istime w then some ((w.setWidth 32) >>> 8) else none
/-- `wg_encode_fixpoint` after rounding to an `int` number of 1/10000ths,
Db/dbdata.c:1654-1677, Db/dbdata.h:420.  Simplification: starts from the rounded `int`. -/
def encodeFixpoint (d : BitVec 32) : Word := ((d <<< 8) ||| 0x0f#32).signExtend 64
/-- `wg_decode_fixpoint`, Db/dbdata.c:1679-1689, without the division by 10000.0. -/
def decodeFixpoint (w : Word) : Option Word :=
  if isfixpoint w then some (w.sshiftRight 8) else none

/-- ISO C: `d << 8` on an `int` is undefined unless `d >= 0` and `d*256` is representable. -/
def shl8Undefined (d : BitVec 32) : Prop := d.toInt < 0 ∨ d.toInt * 256 ≥ 2^31

/-! ### helper lemmas -/

/-- a value shifted left by `k` has `k` zero low bits, whatever is or-ed below stays -/
theorem shl_or_and {n : Nat} (x : BitVec n) (k b m : Nat) (hm : m < 2 ^ k) :
    ((x <<< k) ||| BitVec.ofNat n b) &&& BitVec.ofNat n m
      = BitVec.ofNat n b &&& BitVec.ofNat n m := by
  apply BitVec.eq_of_getLsbD_eq
  intro i hi
  simp only [BitVec.getLsbD_and, BitVec.getLsbD_or, BitVec.getLsbD_shiftLeft,
    BitVec.getLsbD_ofNat]
  by_cases h : i < k
  · simp [h]
  · have : m.testBit i = false :=
      Nat.testBit_lt_two_pow (Nat.lt_of_lt_of_le hm (Nat.pow_le_pow_right (by decide) (by omega)))
    simp [this]

theorem or_and_low (o b m : Word) (h : o &&& 7#64 = 0#64) (hm : m &&& 7#64 = m) :
    (o ||| b) &&& m = b &&& m := by
  have : o &&& m = 0#64 := by
    rw [← hm, BitVec.and_comm m, ← BitVec.and_assoc, h]; simp
  rw [BitVec.and_or_distrib_right, this]; simp

theorem or_and_not (o b m : Word) (h : o &&& m = 0#64) (hb : b &&& ~~~ m = 0#64) :
    (o ||| b) &&& ~~~ m = o := by
  rw [BitVec.and_or_distrib_right, hb]
  apply BitVec.eq_of_getLsbD_eq
  intro i hi
  have := congrArg (fun v : Word => v.getLsbD i) h
  simp only [BitVec.getLsbD_and, BitVec.getLsbD_zero] at this
  simp only [BitVec.getLsbD_or, BitVec.getLsbD_and, BitVec.getLsbD_not, BitVec.getLsbD_zero, hi,
    decide_true, Bool.true_and, Bool.or_false]
  cases h1 : o.getLsbD i <;> simp_all

/-- shifting right drops what was or-ed below -/
theorem shl_or_sshr (x : Word) (k b : Nat) (hb : (BitVec.ofNat 64 b).sshiftRight k = 0#64) :
    ((x <<< k) ||| BitVec.ofNat 64 b).sshiftRight k = (x <<< k).sshiftRight k := by
  rw [BitVec.sshiftRight_or_distrib, hb]; simp

/-- `(d << 8)` survives a machine shift exactly for 24-bit signed values -/
theorem shl8_fits (d : BitVec 32) (h1 : -2^23 ≤ d.toInt) (h2 : d.toInt < 2^23) :
    (d <<< 8).toInt = d.toInt * 256 := by
  have e1 := BitVec.toInt_eq_toNat_cond d
  have e2 := BitVec.toInt_eq_toNat_cond (d <<< 8)
  have e3 : (d <<< 8).toNat = d.toNat * 256 % 4294967296 := by
    rw [BitVec.toNat_shiftLeft, Nat.shiftLeft_eq]
  have hlt := d.isLt
  generalize d.toInt = x at *
  generalize (d <<< 8).toInt = y at *
  generalize d.toNat = n at *
  generalize (d <<< 8).toNat = k at *
  split at e1 <;> split at e2 <;> omega

theorem toWord_shift8 (d : BitVec 32) (c : Nat)
    (hc : ((BitVec.ofNat 32 c).signExtend 64).sshiftRight 8 = 0#64)
    (h1 : -2^23 ≤ d.toInt) (h2 : d.toInt < 2^23) :
    ((((d <<< 8) ||| BitVec.ofNat 32 c).signExtend 64).sshiftRight 8) = d.signExtend 64 := by
  rw [BitVec.signExtend_or, BitVec.sshiftRight_or_distrib, hc, BitVec.or_zero]
  apply BitVec.eq_of_toInt_eq
  rw [BitVec.toInt_sshiftRight, BitVec.toInt_signExtend_of_le (by decide),
    BitVec.toInt_signExtend_of_le (by decide), shl8_fits d h1 h2, Int.shiftRight_eq_div_pow]
  omega

theorem setWidth_signExtend (d : BitVec 32) : (d.signExtend 64).setWidth 32 = d := by
  apply BitVec.eq_of_getLsbD_eq
  intro i hi
  have : i < 64 := by omega
  simp only [BitVec.getLsbD_setWidth, BitVec.getLsbD_signExtend, hi, this, decide_true,
    Bool.true_and, if_true]

theorem signExtend_and255 (d : BitVec 32) (c : Nat) (hc : c < 128) :
    (((d <<< 8) ||| BitVec.ofNat 32 c).signExtend 64) &&& 255#64 = BitVec.ofNat 64 c := by
  apply BitVec.eq_of_getLsbD_eq
  intro i hi
  simp only [BitVec.getLsbD_and, BitVec.getLsbD_signExtend, BitVec.getLsbD_or,
    BitVec.getLsbD_shiftLeft, BitVec.getLsbD_ofNat, hi, decide_true, Bool.true_and]
  by_cases h : i < 8
  · have h32 : i < 32 := by omega
    have : (255 : Nat).testBit i = true := by
      have : (255 : Nat) = 2^8 - 1 := rfl
      rw [this, Nat.testBit_two_pow_sub_one]; simpa using h
    simp [h, h32, this]
  · have h255 : (255 : Nat).testBit i = false :=
      Nat.testBit_lt_two_pow (Nat.lt_of_lt_of_le (by decide : 255 < 2^8)
        (Nat.pow_le_pow_right (by decide) (by omega)))
    have hc' : c.testBit i = false :=
      Nat.testBit_lt_two_pow (Nat.lt_of_lt_of_le (by omega : c < 2^8)
        (Nat.pow_le_pow_right (by decide) (by omega)))
    simp [h255, hc']

/-- 8-byte alignment of an address or offset -/
def Aligned8 (x : Word) : Prop := x &&& 7#64 = 0#64

instance (x : Word) : Decidable (Aligned8 x) := inferInstanceAs (Decidable (_ = _))

theorem aligned8_iff (x : Word) : Aligned8 x ↔ x.toNat % 8 = 0 := by
  have : (x &&& 7#64).toNat = x.toNat % 8 := by
    rw [BitVec.toNat_and]
    exact Nat.and_two_pow_sub_one_eq_mod x.toNat 3
  unfold Aligned8
  rw [← this]
  constructor
  · intro h; rw [h]; rfl
  · intro h; apply BitVec.eq_of_toNat_eq; rw [h]; rfl

theorem aligned8_add {x y : Word} (hx : Aligned8 x) (hy : Aligned8 y) : Aligned8 (x + y) := by
  rw [aligned8_iff] at *
  rw [BitVec.toNat_add]; omega

theorem aligned8_sub {x y : Word} (hx : Aligned8 x) (hy : Aligned8 y) : Aligned8 (x - y) := by
  rw [aligned8_iff] at *
  have := x.isLt; have := y.isLt
  rw [BitVec.toNat_sub]; omega

theorem aligned8_and3 {x : Word} (hx : Aligned8 x) : x &&& 3#64 = 0#64 := by
  have : (3#64 : Word) = 7#64 &&& 3#64 := by decide
  rw [this, ← BitVec.and_assoc, hx]; simp

/-- Segment addresses are aligned (shmat/malloc results; allocator areas are aligned to
ALIGNMENT 8: Db/dballoc.h). -/
def Db.Aligned (db : Db) : Prop := Aligned8 db.base ∧ ∀ k, db.kb = some k → Aligned8 k

theorem encodeKbOffset_aligned {db : Db} (h : db.Aligned) {o : Word} (ho : Aligned8 o) :
    Aligned8 (encodeKbOffset db o) := by
  unfold encodeKbOffset
  split
  · next k hk => exact aligned8_add ho (aligned8_sub h.1 (h.2 k hk))
  · exact ho

/-- the address denoted by an encoded offset, seen from the knowledge base segment, is the
address of the object in its own segment -/
theorem toKb_addr (db : Db) (o : Word) : db.toKb.base + encodeKbOffset db o = db.base + o := by
  unfold Db.toKb encodeKbOffset
  cases h : db.kb with
  | none => rfl
  | some k =>
    simp only
    apply BitVec.eq_of_toNat_eq
    have := db.base.isLt; have := k.isLt; have := o.isLt
    simp only [BitVec.toNat_add, BitVec.toNat_sub]
    omega

theorem decode_fullint_offset_encode {o : Word} (ho : Aligned8 o) :
    decodeFullintOffset (encodeFullintOffset o) = o :=
  or_and_not o 1#64 3#64 (aligned8_and3 ho) (by decide)

theorem isfullint_encode {o : Word} (ho : Aligned8 o) :
    isfullint (encodeFullintOffset o) = true ∧ issmallint (encodeFullintOffset o) = false := by
  unfold isfullint issmallint encodeFullintOffset
  rw [or_and_low o 1#64 3#64 ho (by decide), or_and_low o 1#64 7#64 ho (by decide)]
  decide

theorem issmallint_encode (x : Word) : issmallint (encodeSmallint x) = true := by
  unfold issmallint encodeSmallint
  rw [shl_or_and x 3 3 7 (by decide)]; decide

end Gkc.Encode
