import Verif.Alloc
/-
Going through the records of a database: wg_get_first_raw_record, wg_get_next_raw_record,
wg_get_first_record, wg_get_next_record, and wg_create_raw_record, wg_delete_record (Db/dbdata.c).
-/
namespace Gkc.Alloc

/-- what the functions return: a record, NULL, or NULL with a message; `ub` if the loop does not end -/
inductive NRes where
  | got (o : Nat)
  | null
  | err
  | ub
deriving DecidableEq

/-- the loop of wg_get_next_raw_record, Db/dbdata.c:405-452: `fm` is freemarker -/
def nextF (s : St) : Nat → Nat → Nat → Bool → NRes
  | 0, _, _, _ => .ub
  | f + 1, cur, head, fm =>
    let cur := cur + (if fm then pure head else usedSize head)
    let head := s.mem cur
    if head % 2 = 0 then .got cur
    else if head % 4 = 1 then nextF s f cur head true
    else if s.mem (cur + 8) = 1 then nextF s f cur head false
    else match s.subs.findIdx? fun p => p.1 ≤ cur && cur < p.1 + p.2 with
      | none => .err
      | some i => match s.subs[i + 1]? with
        | none => .null
        | some p => nextF s f p.1 (s.mem p.1) false

/-- wg_get_next_raw_record, Db/dbdata.c:379-453; a block takes at least 32 bytes -/
def nextRaw (s : St) (o : Nat) : NRes := nextF s (s.size / 32 + 1) o (s.mem o) false

/-- wg_get_first_raw_record, Db/dbdata.c:358-374 -/
def firstRaw (s : St) : NRes :=
  match s.subs with
  | [] => .ub
  | p :: _ => nextRaw s p.1

/-- is_special_record, Db/dbdata.h:295: the lowest bit of the second word -/
def special (s : St) (o : Nat) : Bool := s.mem (o + 8) % 2 == 1

/-- wg_get_next_record, Db/dbdata.c:347-353 -/
def nextDataF (s : St) : Nat → Nat → NRes
  | 0, _ => .ub
  | f + 1, o => match nextRaw s o with
    | .got p => if special s p then nextDataF s f p else .got p
    | r => r

def nextData (s : St) (o : Nat) : NRes := nextDataF s (s.size / 32 + 1) o

/-- wg_get_first_record, Db/dbdata.c:337-342 -/
def firstData (s : St) : NRes :=
  match firstRaw s with
  | .got o => if special s o then nextData s o else .got o
  | r => r

/-- storing zeros -/
def zeros (s : St) (a : Nat) : Nat → St
  | 0 => s
  | k + 1 => zeros (s.store a 0) (a + 8) k

/-- wg_create_raw_record, Db/dbdata.c:185-236, for a record with `len` fields: three more words come first,
all but the first are set to zero -/
def createRec (hb : Nat) (s : St) (len : Nat) : ARes :=
  match alloc hb s (len + 3) with
  | .ok o s => .ok o (zeros s (o + 8) (len + 2))
  | r => r

/-- wg_delete_record, Db/dbdata.c:247-330, for a record in no index whose fields need not be freed (small numbers and
the like): the result, and the state.  The result of wg_free_object is not looked at (325-329). -/
def deleteRec (hb : Nat) (s : St) (o : Nat) : Option (Int × St) :=
  if s.mem (o + 16) ≠ 0 then some (-1, s)
  else match freeObj hb s o with
    | .ok s => some (0, s)
    | .err _ => some (0, s)
    | .ub => none

end Gkc.Alloc
