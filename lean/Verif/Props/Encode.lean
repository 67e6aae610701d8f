import Verif.Encode
/-
Property theorems C01, C02, C03 (field encoding).
-/
namespace Gkc.Encode

/-! ## C01 -/

/-- C01.  Encoding any 64-bit integer and decoding the result (through the handle against
which offsets are encoded, `db_to_kb`) gives back the integer, for every allocator answer
other than out-of-memory. -/
theorem C01_int_roundtrip (m : Mem) (db : Db) (alloc x : Word)
    (hdb : db.Aligned) (ha : Aligned8 alloc) (hz : alloc ≠ 0#64) :
    decodeInt (encodeInt m db alloc x).2 db.toKb (encodeInt m db alloc x).1 = some x := by
  unfold encodeInt
  rcases Bool.eq_false_or_eq_true (fitsSmallint x) with hf | hf
  · simp only [hf, if_true, decodeInt, issmallint_encode]
    unfold decodeSmallint encodeSmallint
    rw [shl_or_sshr x 3 3 (by decide)]
    unfold fitsSmallint at hf
    rw [eq_of_beq hf]
  · have hk := encodeKbOffset_aligned hdb ha
    obtain ⟨h1, h2⟩ := isfullint_encode hk
    simp only [hf, hz, Bool.false_eq_true, if_false, decodeInt, h1, h2, if_true, decode_fullint_offset_encode hk,
      dbfetch, dbstore, toKb_addr]

/-- Both storage forms really occur: a small one, the most negative one, and with an attached
knowledge base. -/
example : (encodeInt (fun _ => 0#64) ⟨0x1000#64, none⟩ 64#64 5#64).1 = 43#64 ∧
    fitsSmallint (BitVec.intMin 64) = false ∧
    (⟨0x10000#64, some 0x1000#64⟩ : Db).Aligned := by
  refine ⟨by decide, by decide, by decide, ?_⟩
  intro k hk; cases hk; decide

/-- Encoding a list of integers one after another, `allocs` being the successive answers of
the word allocator. -/
def encodeInts (m : Mem) (db : Db) : List (Word × Word) → List Word × Mem
  | [] => ([], m)
  | (a, x) :: rest =>
    let r := encodeInt m db a x
    let rs := encodeInts r.2 db rest
    (r.1 :: rs.1, rs.2)

theorem encodeInt_frame (m : Mem) (db : Db) (a x b : Word) (h : b ≠ a) :
    dbfetch (encodeInt m db a x).2 db b = dbfetch m db b := by
  have : db.base + b ≠ db.base + a := by
    intro e; apply h
    have := congrArg (fun v => v - db.base) e
    simpa [BitVec.add_comm] using this
  unfold encodeInt
  split
  · rfl
  · split
    · rfl
    · simp [dbfetch, dbstore, this]

theorem encodeInts_frame (m : Mem) (db : Db) (l : List (Word × Word)) (b : Word)
    (h : ∀ p ∈ l, b ≠ p.1) : dbfetch (encodeInts m db l).2 db b = dbfetch m db b := by
  induction l generalizing m with
  | nil => rfl
  | cons p l ih =>
    obtain ⟨a, x⟩ := p
    simp only [encodeInts]
    rw [ih _ (fun q hq => h q (List.mem_cons_of_mem _ hq)),
      encodeInt_frame _ _ _ _ _ (h (a, x) List.mem_cons_self)]

theorem decodeInt_congr (m m' : Mem) (db : Db) (alloc x : Word) (m0 : Mem)
    (hdb : db.Aligned) (ha : Aligned8 alloc) (hz : alloc ≠ 0#64)
    (h : dbfetch m db alloc = dbfetch m' db alloc) :
    decodeInt m db.toKb (encodeInt m0 db alloc x).1
      = decodeInt m' db.toKb (encodeInt m0 db alloc x).1 := by
  unfold encodeInt
  rcases Bool.eq_false_or_eq_true (fitsSmallint x) with hf | hf
  · simp only [hf, if_true, decodeInt, issmallint_encode]
  · have hk := encodeKbOffset_aligned hdb ha
    obtain ⟨h1, h2⟩ := isfullint_encode hk
    simp only [hf, hz, Bool.false_eq_true, if_false, decodeInt, h1, h2, if_true, decode_fullint_offset_encode hk]
    unfold dbfetch at *
    rw [toKb_addr, h]

/-- C01 over histories: after any sequence of integer encodings with distinct live cells
handed out by the allocator, every one of the encoded values still decodes to the integer it
was made from. -/
theorem C01_int_history (m : Mem) (db : Db) (l : List (Word × Word)) (hdb : db.Aligned)
    (hal : ∀ p ∈ l, Aligned8 p.1 ∧ p.1 ≠ 0#64) (hd : (l.map Prod.fst).Nodup) :
    (encodeInts m db l).1.map (decodeInt (encodeInts m db l).2 db.toKb)
      = l.map (fun p => some p.2) := by
  induction l generalizing m with
  | nil => rfl
  | cons p l ih =>
    obtain ⟨a, x⟩ := p
    simp only [List.map_cons, List.nodup_cons] at hd
    obtain ⟨ha, hz⟩ := hal (a, x) List.mem_cons_self
    simp only at ha hz
    simp only [encodeInts, List.map_cons, List.cons.injEq]
    constructor
    · rw [← C01_int_roundtrip m db a x hdb ha hz]
      apply decodeInt_congr _ _ _ _ _ _ hdb ha hz
      apply encodeInts_frame
      intro q hq e
      exact hd.1 (List.mem_map.2 ⟨q, hq, e.symm⟩)
    · exact ih _ (fun q hq => hal q (List.mem_cons_of_mem _ hq)) hd.2

example : ((encodeInts (fun _ => 0#64) ⟨0#64, none⟩
    [(8#64, BitVec.intMin 64), (16#64, 7#64), (24#64, BitVec.intMax 64)]).1.map
    (decodeInt (encodeInts (fun _ => 0#64) ⟨0#64, none⟩
    [(8#64, BitVec.intMin 64), (16#64, 7#64), (24#64, BitVec.intMax 64)]).2 ⟨0#64, none⟩))
    = [some (BitVec.intMin 64), some 7#64, some (BitVec.intMax 64)] := by decide

/-- Negative result behind the `db.toKb` in C01: when a knowledge base segment is attached,
decoding through the same local handle that was used for encoding reads a different cell. -/
theorem C01_local_handle_fails :
    ∃ (m : Mem) (db : Db) (alloc x : Word), db.Aligned ∧ Aligned8 alloc ∧ alloc ≠ 0#64 ∧
      decodeInt (encodeInt m db alloc x).2 db (encodeInt m db alloc x).1 ≠ some x :=
  ⟨fun _ => 0#64, ⟨0x10000#64, some 0x1000#64⟩, 64#64, BitVec.intMin 64,
    ⟨by decide, by intro k hk; cases hk; decide⟩, by decide, by decide, by decide⟩

/-- Doubles: the stored 64 bits read back unchanged. -/
theorem C01_double_roundtrip (m : Mem) (db : Db) (alloc x : Word)
    (hdb : db.Aligned) (ha : Aligned8 alloc) (hz : alloc ≠ 0#64) :
    decodeDouble (encodeDouble m db alloc x).2 db.toKb (encodeDouble m db alloc x).1
      = some x := by
  have hk := encodeKbOffset_aligned hdb ha
  have h1 : isfulldouble (encodeFulldoubleOffset (encodeKbOffset db alloc)) = true := by
    unfold isfulldouble encodeFulldoubleOffset
    rw [or_and_low _ 2#64 7#64 hk (by decide)]; decide
  have h2 : decodeFulldoubleOffset (encodeFulldoubleOffset (encodeKbOffset db alloc))
      = encodeKbOffset db alloc := or_and_not _ 2#64 7#64 hk (by decide)
  simp [encodeDouble, decodeDouble, hz, h1, h2, dbfetch, dbstore, toKb_addr]

/-- Records: the decoded address is the address of the record in its own segment. -/
theorem C01_record_roundtrip (db : Db) (off : Word) :
    decodeRecord db.toKb (encodeRecord db off) = db.base + off := toKb_addr db off

/-! ## C02 -/

/-- Specification: the values a user can store, with what the allocator supplied. -/
inductive Val
  | null
  | record (off : Word)
  | int (x alloc : Word)
  | double (x alloc : Word)
  | shortstr (off : Word)
  /-- a long string object at `off` whose meta word carries the type byte -/
  | longstr (off : Word) (t : DType)
  | char (c : BitVec 8)
  | fixpoint (n : BitVec 32)
  | date (d : BitVec 32)
  | time (t : BitVec 32)
  | var (v : Word)

/-- the type the user asked for -/
def Val.type : Val → DType
  | .null => .null | .record _ => .record | .int .. => .int | .double .. => .double
  | .shortstr _ => .str | .longstr _ t => t | .char _ => .char | .fixpoint _ => .fixpoint
  | .date _ => .date | .time _ => .time | .var _ => .var

/-- the encoded word -/
def Val.enc (m : Mem) (db : Db) : Val → Word
  | .null => 0#64
  | .record off => encodeRecord db off
  | .int x a => (encodeInt m db a x).1
  | .double x a => (encodeDouble m db a x).1
  | .shortstr off => encodeShortstrOffset (encodeKbOffset db off)
  | .longstr off _ => encodeLongstrOffset (encodeKbOffset db off)
  | .char c => encodeChar c
  | .fixpoint n => encodeFixpoint n
  | .date d => encodeDate d
  | .time t => encodeTime t
  | .var v => encodeVar v

/-- Preconditions supplied by the allocator: aligned objects, no out-of-memory, a record is
not at the address of the start of the segment, and the meta byte of a long string object
holds its type. -/
def Val.Ok (m : Mem) (db : Db) : Val → Prop
  | .record off => Aligned8 off ∧ encodeKbOffset db off ≠ 0#64
  | .int _ a => Aligned8 a ∧ a ≠ 0#64
  | .double _ a => Aligned8 a ∧ a ≠ 0#64
  | .shortstr off => Aligned8 off
  | .longstr off t => Aligned8 off ∧
      DType.ofByte (m (db.base + off + 8#64) &&& 255#64) = t
  | _ => True

theorem ne_zero_of_and {w b m : Word} (h : w &&& m = b) (hb : b ≠ 0#64) : w ≠ 0#64 := by
  intro e; subst e; apply hb; rw [← h]; simp

theorem type_of_low3 (m : Mem) (db : Db) (w : Word) (h3 : (w &&& 3#64) ≠ 3#64)
    (h0 : w ≠ 0#64) :
    getEncodedType m db w =
      (let b := w &&& 7#64
       if b = 0#64 then .record
       else if b = 4#64 then
         DType.ofByte (dbfetch m db (decodeLongstrOffset w + 8#64) &&& 255#64)
       else if b = 6#64 then .str
       else if b = 2#64 then .double
       else if b = 1#64 then .int
       else if b = 5#64 then .int
       else .bad) := by
  unfold getEncodedType
  simp only [h0, h3, if_false]

theorem type_of_last8 (m : Mem) (db : Db) (w : Word) (b : Word) (h8 : w &&& 255#64 = b)
    (hb3 : b &&& 3#64 = 3#64) (hv : (b &&& 15#64) ≠ 7#64) (hs : (b &&& 7#64) ≠ 3#64) :
    getEncodedType m db w =
      (if b = 0x1f#64 then .char
      else if b = 0x0f#64 then .fixpoint
      else if b = 0x2f#64 then .date
      else if b = 0x3f#64 then .time
      else if b = 0x4f#64 then .str
      else if b = 0x07#64 then .var
      else if b = 0x5f#64 then .anonconst
      else .bad) := by
  have sub : ∀ k : Word, 255#64 &&& k = k → w &&& k = b &&& k := by
    intro k hk; rw [← h8, BitVec.and_assoc, hk]
  have h3 : w &&& 3#64 = 3#64 := by rw [sub _ (by decide), hb3]
  have h0 : w ≠ 0#64 := ne_zero_of_and h3 (by decide)
  have hv' : isvar w = false := by
    unfold isvar; rw [sub _ (by decide)]; simpa using hv
  have hs' : issmallint w = false := by
    unfold issmallint; rw [sub _ (by decide)]; simpa using hs
  unfold getEncodedType
  simp only [h0, h3, hv', hs', h8, if_false, if_true]
  simp

/-- C02.  For every storable value, the type read back from the encoded word is the type that
was encoded. -/
theorem C02_type_recovered (m : Mem) (db : Db) (v : Val) (hdb : db.Aligned) (hv : v.Ok m db) :
    getEncodedType m db.toKb (v.enc m db) = v.type := by
  cases v with
  | null => simp [Val.enc, Val.type, getEncodedType]
  | record off =>
    obtain ⟨ha, hz⟩ := hv
    have hk := encodeKbOffset_aligned hdb ha
    have h3 := aligned8_and3 hk
    simp only [Val.enc, Val.type, encodeRecord]
    rw [type_of_low3 _ _ _ (by rw [h3]; decide) hz]
    simp only [show encodeKbOffset db off &&& 7#64 = 0#64 from hk, if_true]
  | int x a =>
    obtain ⟨ha, hz⟩ := hv
    have hk := encodeKbOffset_aligned hdb ha
    simp only [Val.enc, Val.type, encodeInt]
    rcases Bool.eq_false_or_eq_true (fitsSmallint x) with hf | hf
    · simp only [hf, if_true]
      have e (k : Nat) (hk : k < 2^3) := shl_or_and x 3 3 k hk
      have h3 : encodeSmallint x &&& 3#64 = 3#64 := by
        unfold encodeSmallint; rw [e 3 (by decide)]; decide
      have h0 : encodeSmallint x ≠ 0#64 := ne_zero_of_and h3 (by decide)
      have hvf : isvar (encodeSmallint x) = false := by
        have h7 : encodeSmallint x &&& 7#64 = 3#64 := by
          unfold encodeSmallint; rw [e 7 (by decide)]; decide
        unfold isvar
        rw [beq_eq_false_iff_ne]
        intro e
        have := congrArg (fun v => v &&& 7#64) e
        simp only [BitVec.and_assoc] at this
        rw [show (15#64 &&& 7#64 : Word) = 7#64 by decide, h7] at this
        exact absurd this (by decide)
      unfold getEncodedType
      simp only [h0, h3, hvf, issmallint_encode, if_true, if_false]
      simp
    · simp only [hf, hz, Bool.false_eq_true, if_false]
      have e3 := or_and_low _ 1#64 3#64 hk (by decide)
      have e7 := or_and_low _ 1#64 7#64 hk (by decide)
      have h7 : encodeFullintOffset (encodeKbOffset db a) &&& 7#64 = 1#64 := by
        unfold encodeFullintOffset; rw [e7]; decide
      have := type_of_low3 m db.toKb (encodeFullintOffset (encodeKbOffset db a))
        (by unfold encodeFullintOffset; rw [e3]; decide) (ne_zero_of_and h7 (by decide))
      rw [this, h7]
      simp
  | double x a =>
    obtain ⟨ha, hz⟩ := hv
    have hk := encodeKbOffset_aligned hdb ha
    simp only [Val.enc, Val.type, encodeDouble, hz, if_false]
    have e3 := or_and_low _ 2#64 3#64 hk (by decide)
    have e7 := or_and_low _ 2#64 7#64 hk (by decide)
    have h7 : encodeFulldoubleOffset (encodeKbOffset db a) &&& 7#64 = 2#64 := by
      unfold encodeFulldoubleOffset; rw [e7]; decide
    rw [type_of_low3 _ _ _ (by unfold encodeFulldoubleOffset; rw [e3]; decide)
      (ne_zero_of_and h7 (by decide)), h7]
    simp
  | shortstr off =>
    have hk := encodeKbOffset_aligned hdb hv
    simp only [Val.enc, Val.type]
    have e3 := or_and_low _ 6#64 3#64 hk (by decide)
    have e7 := or_and_low _ 6#64 7#64 hk (by decide)
    have h7 : encodeShortstrOffset (encodeKbOffset db off) &&& 7#64 = 6#64 := by
      unfold encodeShortstrOffset; rw [e7]; decide
    rw [type_of_low3 _ _ _ (by unfold encodeShortstrOffset; rw [e3]; decide)
      (ne_zero_of_and h7 (by decide)), h7]
    simp
  | longstr off t =>
    obtain ⟨ha, ht⟩ := hv
    have hk := encodeKbOffset_aligned hdb ha
    simp only [Val.enc, Val.type]
    have e3 := or_and_low _ 4#64 3#64 hk (by decide)
    have e7 := or_and_low _ 4#64 7#64 hk (by decide)
    have h7 : encodeLongstrOffset (encodeKbOffset db off) &&& 7#64 = 4#64 := by
      unfold encodeLongstrOffset; rw [e7]; decide
    have hd : decodeLongstrOffset (encodeLongstrOffset (encodeKbOffset db off))
        = encodeKbOffset db off := or_and_not _ 4#64 7#64 hk (by decide)
    rw [type_of_low3 _ _ _ (by unfold encodeLongstrOffset; rw [e3]; decide)
      (ne_zero_of_and h7 (by decide)), h7, hd]
    simp only [dbfetch, ← BitVec.add_assoc, toKb_addr, ht]
    simp
  | char c =>
    simp only [Val.enc, Val.type]
    have h8 : encodeChar c &&& 255#64 = 0x1f#64 := by
      unfold encodeChar; rw [shl_or_and _ 8 0x1f 255 (by decide)]; decide
    rw [type_of_last8 m db.toKb _ _ h8 (by decide) (by decide) (by decide)]
    decide
  | fixpoint n =>
    simp only [Val.enc, Val.type, encodeFixpoint]
    rw [type_of_last8 m db.toKb _ _ (signExtend_and255 n 0x0f (by decide))
      (by decide) (by decide) (by decide)]
    decide
  | date d =>
    simp only [Val.enc, Val.type, encodeDate]
    rw [type_of_last8 m db.toKb _ _ (signExtend_and255 d 0x2f (by decide))
      (by decide) (by decide) (by decide)]
    decide
  | time t =>
    simp only [Val.enc, Val.type, encodeTime]
    rw [type_of_last8 m db.toKb _ _ (signExtend_and255 t 0x3f (by decide))
      (by decide) (by decide) (by decide)]
    decide
  | var v =>
    simp only [Val.enc, Val.type]
    have e (k : Nat) (hk : k < 2^4) := shl_or_and v 4 7 k hk
    have h3 : encodeVar v &&& 3#64 = 3#64 := by unfold encodeVar; rw [e 3 (by decide)]; decide
    have hv : isvar (encodeVar v) = true := by
      unfold isvar encodeVar; rw [e 15 (by decide)]; decide
    unfold getEncodedType
    simp [ne_zero_of_and h3 (by decide), h3, hv]

/-- C02, second half: values of different types never get the same encoded word. -/
theorem C02_no_confusion (m : Mem) (db : Db) (v w : Val) (hdb : db.Aligned)
    (hv : v.Ok m db) (hw : w.Ok m db) (h : v.enc m db = w.enc m db) : v.type = w.type := by
  rw [← C02_type_recovered m db v hdb hv, ← C02_type_recovered m db w hdb hw, h]

/-- A successful encoding is never the failure mark `WG_ILLEGAL`. -/
theorem C02_never_illegal (m : Mem) (db : Db) (v : Val) (hdb : db.Aligned) (hv : v.Ok m db)
    (ht : v.type ≠ .bad) : v.enc m db ≠ WG_ILLEGAL := by
  intro h
  have := C02_type_recovered m db v hdb hv
  rw [h] at this
  apply ht
  rw [← this]
  exact type_of_last8 m db.toKb WG_ILLEGAL 0xff#64 (by decide) (by decide) (by decide) (by decide)

example : (Val.longstr 64#64 .uri).Ok (fun _ => 0x0a07#64) ⟨0x1000#64, none⟩ ∧
    (Val.int (BitVec.intMin 64) 8#64).Ok (fun _ => 0#64) ⟨0x1000#64, none⟩ := by
  refine ⟨⟨by decide, by decide⟩, ⟨by decide, by decide⟩⟩

/-! ## C03 -/

/-- characters: all 256 values -/
theorem C03_char_roundtrip (c : BitVec 8) : decodeChar (encodeChar c) = c := by
  revert c; decide +kernel

/-- variables: exactly the numbers that fit 60 bits round-trip (the encoder itself does not
check, `CHECK` is undefined) -/
theorem C03_var_roundtrip_iff (v : Word) :
    decodeVar (encodeVar v) = v ↔ fitsVar v = true := by
  unfold decodeVar encodeVar fitsVar
  rw [shl_or_sshr v 4 7 (by decide)]
  simp

/-- every variable number below 2^59 fits -/
theorem C03_var_fits (v : Word) (h : v.toNat < 2^59) : decodeVar (encodeVar v) = v := by
  rw [C03_var_roundtrip_iff]
  unfold fitsVar
  rw [beq_iff_eq]
  apply BitVec.eq_of_toInt_eq
  have e1 := BitVec.toInt_eq_toNat_cond v
  have e2 := BitVec.toInt_eq_toNat_cond (v <<< 4)
  have e3 : (v <<< 4).toNat = v.toNat * 16 % 2^64 := by
    rw [BitVec.toNat_shiftLeft, Nat.shiftLeft_eq]
  rw [BitVec.toInt_sshiftRight, Int.shiftRight_eq_div_pow, e2, e1]
  split <;> split <;> omega

/-- dates: a day number round-trips when it is a 24-bit signed number -/
theorem C03_date_roundtrip (d : BitVec 32) (h1 : -2^23 ≤ d.toInt) (h2 : d.toInt < 2^23) :
    decodeDate (encodeDate d) = some d := by
  unfold decodeDate encodeDate isdate
  rw [signExtend_and255 d 0x2f (by decide), toWord_shift8 d 0x2f (by decide) h1 h2,
    setWidth_signExtend]
  simp

/-- fixed point numbers: every number of 1/10000ths with absolute value at most 800 units -/
theorem C03_fixpoint_roundtrip (d : BitVec 32) (h1 : -8000000 ≤ d.toInt)
    (h2 : d.toInt ≤ 8000000) : decodeFixpoint (encodeFixpoint d) = some (d.signExtend 64) := by
  unfold decodeFixpoint encodeFixpoint isfixpoint
  rw [signExtend_and255 d 0x0f (by decide), toWord_shift8 d 0x0f (by decide) (by omega) (by omega)]
  simp

/-- times: every 24-bit number, which covers a day (8 640 000 hundredths) -/
theorem C03_time_roundtrip (t : BitVec 32) (h : t.toNat < 2^24) :
    decodeTime (encodeTime t) = some t := by
  unfold decodeTime encodeTime istime
  rw [signExtend_and255 t 0x3f (by decide), setWidth_signExtend]
  simp only [beq_self_eq_true, if_true, Option.some.injEq]
  apply BitVec.eq_of_getLsbD_eq
  intro i hi
  simp only [BitVec.getLsbD_ushiftRight, BitVec.getLsbD_or, BitVec.getLsbD_shiftLeft,
    BitVec.getLsbD_ofNat]
  have h3f : (0x3f : Nat).testBit (8 + i) = false :=
    Nat.testBit_lt_two_pow (Nat.lt_of_lt_of_le (by decide : 0x3f < 2^8)
      (Nat.pow_le_pow_right (by decide) (by omega)))
  simp only [h3f]
  by_cases h32 : 8 + i < 32
  · simp [h32]
  · have : t.getLsbD i = false := by
      rw [← BitVec.testBit_toNat]
      exact Nat.testBit_lt_two_pow (Nat.lt_of_lt_of_le h
        (Nat.pow_le_pow_right (by decide) (by omega)))
    simp [h32, this]

example : (23 * 360000 + 59 * 6000 + 59 * 100 + 99 : Nat) < 2^24 := by decide

/-- C03 at full strength ("encoders reject what they cannot represent") is false of the code:
the date encoder accepts day number 2^23 (year 22967) and it reads back as a negative day. -/
theorem C03_date_not_rejected :
    decodeDate (encodeDate 8388608#32) = some (BitVec.ofInt 32 (-8388608)) := by decide

/-- likewise for variables, fixed point numbers and times out of range -/
theorem C03_others_not_rejected :
    decodeVar (encodeVar (1#64 <<< 60)) = 0#64 ∧
    decodeFixpoint (encodeFixpoint 8388608#32) = some (BitVec.ofInt 64 (-8388608)) ∧
    decodeTime (encodeTime 16777216#32) = some 0#32 := by decide

/-- the two parts of C03 that hold, together -/
theorem C03_immediate_roundtrip_partial :
    (∀ c, decodeChar (encodeChar c) = c) ∧
    (∀ v : Word, v.toNat < 2^59 → decodeVar (encodeVar v) = v) ∧
    (∀ d : BitVec 32, -2^23 ≤ d.toInt → d.toInt < 2^23 → decodeDate (encodeDate d) = some d) ∧
    (∀ d : BitVec 32, -8000000 ≤ d.toInt → d.toInt ≤ 8000000 →
      decodeFixpoint (encodeFixpoint d) = some (d.signExtend 64)) ∧
    (∀ t : BitVec 32, t.toNat < 2^24 → decodeTime (encodeTime t) = some t) :=
  ⟨C03_char_roundtrip, C03_var_fits, C03_date_roundtrip, C03_fixpoint_roundtrip,
    C03_time_roundtrip⟩

/-- Even inside the documented range the shift of a late time of day (from 23:18:06.08 on) is
undefined behaviour in ISO C (it relies on the compiler's wrapping shift). -/
theorem C03_time_shift_ub : shl8Undefined 8388608#32 ∧ (8388608 : Nat) < 24*60*60*100 := by
  refine ⟨Or.inr (by decide), by decide⟩

end Gkc.Encode
