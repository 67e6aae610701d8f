/-
The fields of records: Db/dbdata.c 105-330 (creating and deleting records), 454-502 (parents), 655-1000
(storing a value in a field), 1235-1345 (freeing values), 2940-3205 (encoding strings).

The model has the two ways the file can be compiled: `quick = true` is QUICK_REASONER as defined in
Db/dbdata.c:84 (the program as it is), `quick = false` the same code without it.

Simplifications.  The areas are maps from offsets to objects; the offset of a new object is chosen by the
allocator and is part of the call, any offset where no object of the area lives (that the storage areas keep
objects apart is C42).  Allocation does not fail.  Indexes are left out (they are C55).  The hash table of
strings is "the string object with this content, if there is one" (C51); the language or prefix of a string is
part of its content.  A call that reads or writes an object that is not there is `none`: what the C code does
then is undefined.
-/

namespace Gkc.Fields

/-- An encoded value: immediate (0 is NULL), pointer to a long string (LONGSTRBITS), to an object that is not
shared (full integer, double, short string: FULLINTBITS, FULLDOUBLEBITS, SHORTSTRBITS) or to a record
(DATARECBITS).  Db/dbdata.h:335-370. -/
inductive V where
  | imm (n : Int)
  | str (o : Nat)
  | box (o : Nat)
  | ref (o : Nat)
deriving DecidableEq, Repr

/-- A long string: content and LONGSTR_REFCOUNT_POS (Db/dbdata.h:670). -/
structure Str where
  text : String
  refs : Int
deriving DecidableEq, Repr

/-- A record: RECORD_BACKLINKS_POS (the offsets in the cells of the chain) and the fields
(Db/dbdata.h:283). -/
structure Rec where
  back : List Nat
  fields : List V
deriving DecidableEq, Repr

/-- The storage areas. -/
structure St where
  strs : List (Nat × Str)
  boxes : List (Nat × Int)
  recs : List (Nat × Rec)
deriving DecidableEq, Repr

/-- An empty database. -/
def St.empty : St := ⟨[], [], []⟩

/-- The object at an offset. -/
def get {α} : List (Nat × α) → Nat → Option α
  | [], _ => none
  | (k, a) :: m, o => if k = o then some a else get m o

/-- Writing the object at an offset. -/
def put {α} : List (Nat × α) → Nat → α → List (Nat × α)
  | [], _, _ => []
  | (k, a) :: m, o, b => if k = o then (k, b) :: m else (k, a) :: put m o b

/-- wg_free_object, wg_free_word etc: the offset is free again. -/
def drop {α} : List (Nat × α) → Nat → List (Nat × α)
  | [], _ => []
  | (k, a) :: m, o => if k = o then m else (k, a) :: drop m o

/-- wg_find_strhash_bucket: the string object with a given content. -/
def findText : List (Nat × Str) → String → Option Nat
  | [], _ => none
  | (k, s) :: m, t => if s.text = t then some k else findText m t

/-- Db/dbdata.c:1277-1385 free_field_encoffset: a record is left alone; a string loses one count and is freed
(and taken from the hash table) if the count is then not above zero; other objects are freed. -/
def freeField (s : St) : V → Option St
  | .imm _ => some s
  | .ref _ => some s
  | .str o =>
    match get s.strs o with
    | none => none
    | some x =>
      if x.refs - 1 > 0 then some { s with strs := put s.strs o ⟨x.text, x.refs - 1⟩ }
      else some { s with strs := drop s.strs o }
  | .box o =>
    match get s.boxes o with
    | none => none
    | some _ => some { s with boxes := drop s.boxes o }

/-- `++(*(strptr+LONGSTR_REFCOUNT_POS))`, Db/dbdata.c:768-773, 918-922, 1255-1256. -/
def addRef (s : St) : V → Option St
  | .str o =>
    match get s.strs o with
    | none => none
    | some x => some { s with strs := put s.strs o ⟨x.text, x.refs + 1⟩ }
  | _ => some s

/-- The record pointed to gets a cell at the end of its chain, Db/dbdata.c:803-823, 936-956. -/
def addBack (s : St) (parent : Nat) : V → Option St
  | .ref c =>
    match get s.recs c with
    | none => none
    | some r => some { s with recs := put s.recs c { r with back := r.back ++ [parent] } }
  | _ => some s

/-- Result of taking a cell out of a chain. -/
inductive Taken where
  | undef
  | corrupt
  | ok (s : St)
deriving DecidableEq, Repr

/-- The first cell of the parent is taken out of the chain of the record pointed to, Db/dbdata.c:291-316,
741-763. -/
def takeBack (s : St) (parent : Nat) : V → Taken
  | .ref c =>
    match get s.recs c with
    | none => .undef
    | some r =>
      if parent ∈ r.back then .ok { s with recs := put s.recs c { r with back := r.back.erase parent } }
      else .corrupt
  | _ => .ok s

/-- The store into the field itself: `(*fieldadr)=data`. -/
def store (s : St) (r i : Nat) (v : V) : Option St :=
  match get s.recs r with
  | none => none
  | some x =>
    if i < x.fields.length then some { s with recs := put s.recs r { x with fields := x.fields.set i v } }
    else none

/-- Db/dbdata.c:1197-1212 wg_get_field. -/
def getField (s : St) (r i : Nat) : Option V :=
  match get s.recs r with
  | none => none
  | some x => x.fields[i]?

/-- Db/dbdata.c:867-986 wg_set_new_field: the new state and the code returned. -/
def setNew (quick : Bool) (s : St) (r i : Nat) (v : V) : Option (St × Int) :=
  match store s r i v with
  | none => none
  | some s1 =>
    if quick then some (s1, 0)
    else
      match addRef s1 v with
      | none => none
      | some s2 =>
        match addBack s2 r v with
        | none => none
        | some s3 => some (s3, 0)

/-- Db/dbdata.c:654-846 wg_set_field. -/
def setField (quick : Bool) (s : St) (r i : Nat) (v : V) : Option (St × Int) :=
  match getField s r i with
  | none => none
  | some old =>
    if quick then some (s, 0)
    else if old = v then some (s, 0)
    else
      match takeBack s r old with
      | .undef => none
      | .corrupt => some (s, -4)
      | .ok s1 =>
        match addRef s1 v with
        | none => none
        | some s2 =>
          match freeField s2 old with
          | none => none
          | some s3 =>
            match store s3 r i v with
            | none => none
            | some s4 =>
              match addBack s4 r v with
              | none => none
              | some s5 => some (s5, 0)

/-- The loop over the fields in wg_delete_record, Db/dbdata.c:279-322: the new state, and whether the loop went
to the end. -/
def clear (s : St) (r : Nat) : List V → Option (St × Bool)
  | [] => some (s, true)
  | v :: vs =>
    match takeBack s r v with
    | .undef => none
    | .corrupt => some (s, false)
    | .ok s1 =>
      match freeField s1 v with
      | none => none
      | some s2 => clear s2 r vs

/-- Db/dbdata.c:247-332 wg_delete_record. -/
def delete (s : St) (r : Nat) : Option (St × Int) :=
  match get s.recs r with
  | none => none
  | some x =>
    if x.back ≠ [] then some (s, -1)
    else
      match clear s r x.fields with
      | none => none
      | some (s1, false) => some (s1, -3)
      | some (s1, true) => some ({ s1 with recs := drop s1.recs r }, 0)

/-- Db/dbdata.c:1234-1263 wg_free_encoded: a string gets one count more before it is freed. -/
def freeEnc (s : St) (v : V) : Option St :=
  match addRef s v with
  | none => none
  | some s1 => freeField s1 v

/-- Calls.  `o` is the offset the allocator takes if it is asked for one. -/
inductive Op where
  /-- wg_create_record with a number of fields -/
  | create (o n : Nat)
  /-- wg_encode_str and the like with a content that goes to the long string area -/
  | encodeStr (o : Nat) (t : String)
  /-- encoding of a value that gets an object of its own -/
  | encodeBox (o : Nat) (n : Int)
  | setNew (r i : Nat) (v : V)
  | set (r i : Nat) (v : V)
  | delete (r : Nat)
  | free (v : V)
deriving DecidableEq, Repr

/-- What a call gives: the code of the functions that return one, the encoded value of the others (the offset of
a new record as `.ref`). -/
inductive Out where
  | code (n : Int)
  | val (v : V)
deriving DecidableEq, Repr

/-- One call: wg_create_record (Db/dbdata.c:160-229), wg_encode_unistr (2940-3022) with find_create_longstr
(3039-3200), the encoding of other values, and the functions above. -/
def step (quick : Bool) (s : St) : Op → Option (St × Out)
  | .create o n => some ({ s with recs := (o, ⟨[], List.replicate n (.imm 0)⟩) :: s.recs }, .val (.ref o))
  | .encodeStr o t =>
    match findText s.strs t with
    | some k => some (s, .val (.str k))
    | none => some ({ s with strs := (o, ⟨t, 0⟩) :: s.strs }, .val (.str o))
  | .encodeBox o n => some ({ s with boxes := (o, n) :: s.boxes }, .val (.box o))
  | .setNew r i v => (setNew quick s r i v).map fun p => (p.1, .code p.2)
  | .set r i v => (setField quick s r i v).map fun p => (p.1, .code p.2)
  | .delete r => (delete s r).map fun p => (p.1, .code p.2)
  | .free v => (freeEnc s v).map fun s => (s, .code 0)

/-- Db/dbdata.c:458-474 wg_get_first_parent. -/
def firstParent (s : St) (r : Nat) : Option Nat :=
  match get s.recs r with
  | none => none
  | some x => x.back.head?

/-- The loop of wg_get_next_parent over the chain. -/
def nextIn : List Nat → Nat → Option Nat
  | a :: b :: l, p => if a = p ∧ b ≠ 0 then some b else nextIn (b :: l) p
  | _, _ => none

/-- Db/dbdata.c:479-503 wg_get_next_parent. -/
def nextParent (s : St) (r p : Nat) : Option Nat :=
  match get s.recs r with
  | none => none
  | some x => nextIn x.back p

/-- The usual loop over the parents of a record: the first, then the next until there is no next; at most
`n` of them. -/
def parents (s : St) (r : Nat) (n : Nat) : List Nat :=
  go n (firstParent s r)
where
  go : Nat → Option Nat → List Nat
    | 0, _ => []
    | _, none => []
    | n + 1, some p => p :: go n (nextParent s r p)

end Gkc.Fields
