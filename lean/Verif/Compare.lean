/-
The order of stored values (Db/dbcompare.c:52-270, Db/dbcompare.h:37-62).

Simplified: a database is given by what its words stand for (that words are decoded to what was
encoded is C01-C05), doubles are compared through their bits, fixed point numbers through their
ten-thousandths.
-/
namespace Gkc.Compare

/-- gint -/
abbrev Word := Int

/-- char, compared by strcmp and memcmp as unsigned char -/
abbrev Byte := BitVec 8

/-- What a word stands for: wg_get_encoded_type, Db/dbdata.c:1406-1449, and the wg_decode functions.
Strings may have a language, XML literals a type, uris a prefix. -/
inductive Val where
  | null
  | record (addr : Nat)
  | int (i : Int)
  | dbl (bits : BitVec 64)
  | str (s : List Byte) (lang : Option (List Byte))
  | xml (s : List Byte) (ty : Option (List Byte))
  | uri (s : List Byte) (prefix_ : Option (List Byte))
  | blob (s : List Byte)
  | char (c : Byte)
  | fix (n : Int)
  | date (n : Int)
  | time (n : Int)
  | anon
  | var (n : Int)
  deriving DecidableEq

/-- the type codes, Db/dbdata.h -/
def Val.ty : Val → Int
  | .null => 1
  | .record _ => 2
  | .int _ => 3
  | .dbl _ => 4
  | .str _ _ => 5
  | .xml _ _ => 6
  | .uri _ _ => 7
  | .blob _ => 8
  | .char _ => 9
  | .fix _ => 10
  | .date _ => 11
  | .time _ => 12
  | .anon => 13
  | .var _ => 14

/-- a database: the words (`none`: wg_get_encoded_type gives -1) and the fields of records -/
structure Db where
  val : Word → Option Val
  fields : Nat → Option (List Word)

/-- wg_get_encoded_type, Db/dbdata.c:1406-1449 -/
def Db.ty (db : Db) (w : Word) : Int := match db.val w with
  | none => -1
  | some v => v.ty

/-- the first difference decides, and the shorter is less -/
def cmpBytes : List Byte → List Byte → Ordering
  | [], [] => .eq
  | [], _ :: _ => .lt
  | _ :: _, [] => .gt
  | a :: as, b :: bs => if a.toNat < b.toNat then .lt else if a.toNat > b.toNat then .gt else cmpBytes as bs

/-- strcmp of the C standard library: up to the zero byte -/
def strcmp (s t : List Byte) : Ordering := cmpBytes (s.takeWhile (· != 0)) (t.takeWhile (· != 0))

/-- memcmp over the length of the shorter, then the lengths, Db/dbcompare.c:252-258 -/
def blobcmp (s t : List Byte) : Ordering :=
  let m := if s.length < t.length then s.length else t.length
  match cmpBytes (s.take m) (t.take m) with
  | .eq => if s.length > t.length then .gt else if s.length < t.length then .lt else .eq
  | r => r

/-- is the double not a number? -/
def isNaN (b : BitVec 64) : Bool := (b.extractLsb' 52 11).toNat == 2047 && (b.extractLsb' 0 52).toNat != 0

/-- The magnitude bits with the sign: for doubles that are numbers this is their order (and the two
zeros are equal). -/
def dblKey (b : BitVec 64) : Int :=
  if b.getLsbD 63 then - ((b.extractLsb' 0 63).toNat : Int) else ((b.extractLsb' 0 63).toNat : Int)

/-- `==` of C -/
def dblEq (a b : BitVec 64) : Bool := !isNaN a && !isNaN b && dblKey a == dblKey b

/-- `>` of C -/
def dblGt (a b : BitVec 64) : Bool := !isNaN a && !isNaN b && decide (dblKey a > dblKey b)

/-- `a>b ? WG_GREATER : WG_LESSTHAN` -/
def gtOrLt (b : Bool) : Ordering := if b then .gt else .lt

/-- the language, type or prefix, Db/dbcompare.c:215-232; `none`: they are equal and the comparison
goes on -/
def extcmp : Option (List Byte) → Option (List Byte) → Option Ordering
  | none, none => none
  | some e, none => if (e.takeWhile (· != 0)).isEmpty then none else some .gt
  | none, some e => if (e.takeWhile (· != 0)).isEmpty then none else some .lt
  | some e, some f => match strcmp e f with
    | .eq => none
    | r => some r

/-- the loop over the fields, Db/dbcompare.c:139-157 -/
def cmpFields (f : Word → Word → Option Ordering) : List Word → List Word → Option Ordering
  | x :: xs, y :: ys =>
    if x = y then cmpFields f xs ys
    else match f x y with
      | none => none
      | some .eq => cmpFields f xs ys
      | some r => some r
  | _, _ => some .eq

/-- two records, Db/dbcompare.c:103-159; `sub`: the comparison of fields, `none` if the depth is used up -/
def cmpRec (db : Db) (sub : Option (Word → Word → Option Ordering)) (p q : Nat) : Option Ordering :=
  match sub with
  | none => some (gtOrLt (decide (p > q)))
  | some f => match db.fields p, db.fields q with
    | some xs, some ys =>
      if xs.length ≠ ys.length then some (gtOrLt (decide (xs.length > ys.length))) else cmpFields f xs ys
    | _, _ => none

/-- two values of the same type, Db/dbcompare.c:86-265; `none`: undefined (a word that is no value
is read as a double, Db/dbcompare.c:168-174) -/
def cmpVal (db : Db) (sub : Option (Word → Word → Option Ordering)) (a b : Word) : Val → Val → Option Ordering
  | .record p, .record q => cmpRec db sub p q
  | .int i, .int j => some (if i = j then .eq else gtOrLt (decide (i > j)))
  | .dbl x, .dbl y => some (if dblEq x y then .eq else gtOrLt (dblGt x y))
  | .str s _, .str t _ => some (strcmp s t)
  | .xml s e, .xml t f => match extcmp e f with
    | some r => some r
    | none => some (strcmp s t)
  | .uri s e, .uri t f => match extcmp e f with
    | some r => some r
    | none => some (strcmp s t)
  | .blob s, .blob t => some (blobcmp s t)
  | .char c, .char d => some (strcmp [c] [d])
  | .fix m, .fix n => some (gtOrLt (decide (m > n)))
  | .date m, .date n => some (gtOrLt (decide (m > n)))
  | .time m, .time n => some (gtOrLt (decide (m > n)))
  | .anon, .anon => some (gtOrLt (decide (a > b)))
  | .var m, .var n => some (gtOrLt (decide (m > n)))
  | _, _ => none

/-- the body of wg_compare -/
def cmpWith (db : Db) (sub : Option (Word → Word → Option Ordering)) (a b : Word) : Option Ordering :=
  if db.ty a = db.ty b then
    match db.val a, db.val b with
    | some v, some w => cmpVal db sub a b v w
    | _, _ => none
  else some (gtOrLt (decide (db.ty a > db.ty b)))

/-- wg_compare, Db/dbcompare.c:52-270, for different words -/
def wgCompare (db : Db) : Nat → Word → Word → Option Ordering
  | 0 => cmpWith db none
  | d + 1 => cmpWith db (some (wgCompare db d))

/-- WG_COMPARE_REC_DEPTH, Db/dbcompare.h:48 -/
def recDepth : Nat := 7

/-- WG_COMPARE, Db/dbcompare.h:60-61 -/
def WG_COMPARE (db : Db) (a b : Word) : Option Ordering :=
  if a = b then some .eq else wgCompare db recDepth a b

end Gkc.Compare
