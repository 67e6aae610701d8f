import Verif.TTree
/-
Keeping T-tree indexes current: the hooks wg_index_add_rec, wg_index_del_rec, wg_index_add_field,
wg_index_del_field (Db/dbindex.c:2677-2983) and the functions that call them or should
(Db/dbdata.c:160-170, 247-330, 660-945, Db/dbschema.c:69-158).

Simplified: an index is given by the rows in it, each as often as it was added and not removed, with the
key it had when it was added (that a T-tree has these rows is C53, as long as the keys of its rows do not
change; if the key of a row has changed then it is taken not to be found for removal); memory does not
run out;
records are not special; a record that is deleted is not referred to (otherwise wg_delete_record
returns -1 and does nothing); hash indexes and their several columns are left out.
-/
namespace Gkc.Hooks
open Gkc.Compare (Word)
open Gkc.TTree (Row)

/-- the order of values, and which values are variables -/
structure Cfg where
  cmp : Word → Word → Ordering
  isVar : Word → Bool

/-- wg_index_header of a T-tree: rec_field_index[0], the match record of the template, the rows -/
structure Hdr where
  col : Nat
  tmpl : Option (List Word)
  rows : List (Row × Word)
  deriving DecidableEq

/-- MAX_INDEXED_FIELDNR + 1, Db/dballoc.h:265 -/
def tableSize : Nat := 128

/-- the fields of the match record and the record are compared, Db/dbindex.c:1983-1989, 2807-2815 -/
def Cfg.sameFields (C : Cfg) : List Word → List Word → Bool
  | w :: t, f :: fs => (C.isVar w || decide (C.cmp w f = .eq)) && C.sameFields t fs
  | _, _ => true

/-- wg_match_template, Db/dbindex.c:1959-1991 -/
def Cfg.matchTemplate (C : Cfg) (t fs : List Word) : Bool :=
  if t.length > fs.length then false else C.sameFields t fs

/-- MATCH_TEMPLATE, Db/dbindex.h:62-64 -/
def Cfg.matches_ (C : Cfg) (h : Hdr) (fs : List Word) : Bool := match h.tmpl with
  | none => true
  | some t => C.matchTemplate t fs

/-- is the index in index_template_table[i]? Db/dbindex.c:2235-2248 -/
def Cfg.fixedAt (C : Cfg) (h : Hdr) (i : Nat) : Bool := match h.tmpl with
  | none => false
  | some t => match t[i]? with
    | none => false
    | some w => !C.isVar w

/-- firstmatch, Db/dbindex.c:2807-2815 -/
def Cfg.firstFixed (C : Cfg) : List Word → Nat → Option Nat
  | [], _ => none
  | w :: t, j => if C.isVar w then C.firstFixed t (j + 1) else some j

/-- the test for an index in index_template_table[i], Db/dbindex.c:2802-2817; `len`: the number of
fields, at most 128 -/
def Cfg.firstTime (C : Cfg) (h : Hdr) (fs : List Word) (len i : Nat) : Bool := match h.tmpl with
  | none => false
  | some t => !decide (t.length > len) && C.sameFields t fs && decide (C.firstFixed t 0 = some i) && decide (len > h.col)

/-- the field that is the key, Db/dbindex.c:448, 781; it is asked for only if the record has it -/
def keyOf (h : Hdr) (fs : List Word) : Word := fs.getD h.col 0

/-- what the round for column `i` of wg_index_add_rec does to an index, Db/dbindex.c:2755-2829 -/
def Cfg.addAt (C : Cfg) (fs : List Word) (len : Nat) (r : Row) (h : Hdr) (i : Nat) : Hdr :=
  let h1 := if h.col = i ∧ C.matches_ h fs then { h with rows := (r, keyOf h fs) :: h.rows } else h
  if C.fixedAt h1 i ∧ C.firstTime h1 fs len i then { h1 with rows := (r, keyOf h1 fs) :: h1.rows } else h1

/-- wg_index_add_rec, Db/dbindex.c:2742-2831 -/
def Cfg.addRec (C : Cfg) (idxs : List Hdr) (fs : List Word) (r : Row) : List Hdr :=
  let len := if fs.length > 127 then tableSize else fs.length
  (List.range len).foldl (fun idxs i => idxs.map fun h => C.addAt fs len r h i) idxs

/-- The removals wg_index_del_rec does, as numbers of indexes, Db/dbindex.c:2917-2981; the lists of the tables are
taken to be in the order of creation. -/
def Cfg.targets (C : Cfg) (idxs : List Hdr) (fs : List Word) (len i : Nat) : List Nat :=
  (List.range idxs.length).filter (fun n => match idxs[n]? with
    | none => false
    | some h => decide (h.col = i) && C.matches_ h fs) ++
  (List.range idxs.length).filter (fun n => match idxs[n]? with
    | none => false
    | some h => C.fixedAt h i && C.firstTime h fs len i)

/-- INDEX_REMOVE_ROW one after another, Db/dbindex.c:2643-2668.  A row that is not in the index is
ignored if there is no bounding node for its key (ttree_remove_row gives -2, 794); if there is one
(`bound`, the tree is not in this model) the result is -3 (817) and everything ends: `false`. -/
def removeAll (bound : Nat → Bool) (fs : List Word) (r : Row) : List Nat → List Hdr → List Hdr × Bool
  | [], idxs => (idxs, true)
  | n :: ns, idxs => match idxs[n]? with
    | none => removeAll bound fs r ns idxs
    | some h =>
      if (r, keyOf h fs) ∈ h.rows then
        removeAll bound fs r ns (idxs.set n { h with rows := h.rows.erase (r, keyOf h fs) })
      else if bound n then (idxs, false)
      else removeAll bound fs r ns idxs

/-- wg_index_del_rec, Db/dbindex.c:2904-2983 -/
def Cfg.delRec (C : Cfg) (bound : Nat → Bool) (idxs : List Hdr) (fs : List Word) (r : Row) : List Hdr × Bool :=
  let len := if fs.length > 127 then tableSize else fs.length
  removeAll bound fs r ((List.range len).flatMap (C.targets idxs fs len)) idxs

/-- wg_index_add_field, Db/dbindex.c:2677-2733 -/
def Cfg.addField (C : Cfg) (idxs : List Hdr) (fs : List Word) (r : Row) (column : Nat) : List Hdr :=
  idxs.map fun h =>
    let h1 := if h.col = column ∧ fs.length > h.col ∧ C.matches_ h fs then { h with rows := (r, keyOf h fs) :: h.rows } else h
    if C.fixedAt h1 column ∧ fs.length > h.col ∧ C.matches_ h fs then { h1 with rows := (r, keyOf h1 fs) :: h1.rows } else h1

/-- wg_index_del_field, Db/dbindex.c:2840-2897 -/
def Cfg.delField (C : Cfg) (idxs : List Hdr) (fs : List Word) (r : Row) (column : Nat) : List Hdr :=
  idxs.map fun h =>
    let h1 := if h.col = column ∧ fs.length > h.col ∧ C.matches_ h fs then { h with rows := h.rows.erase (r, keyOf h fs) } else h
    if C.fixedAt h1 column ∧ fs.length > h.col ∧ C.matches_ h fs then { h1 with rows := h1.rows.erase (r, keyOf h1 fs) } else h1

/-- the records, their fields, and the indexes -/
structure St where
  live : List Row
  fields : Row → List Word
  idxs : List Hdr

/-- trailing variables are trimmed, `none`: there are only variables, Db/dbindex.c:1767-1789 -/
def Cfg.trim (C : Cfg) (t : List Word) : Option (List Word) :=
  let t' := (t.reverse.dropWhile C.isVar).reverse
  if t' = [] then none else some t'

/-- the checks of wg_create_multi_index, Db/dbindex.c:2081-2165; the trimmed template, if all is right.
Records in templates are refused elsewhere, and templates are the same if their words are. -/
def Cfg.checkIndex (C : Cfg) (idxs : List Hdr) (col : Nat) (matchrec : Option (List Word)) : Option (Option (List Word)) :=
  if col > 127 then none
  else
    let tm : Option (Option (List Word)) := match matchrec with
      | none => some none
      | some t =>
        if t = [] ∨ t.length > tableSize then none
        else match t[col]? with
          | none => (C.trim t).map some
          | some w => if C.isVar w then (C.trim t).map some else none
    match tm with
    | none => none
    | some t => if idxs.any (fun h => h.col = col ∧ h.tmpl = t) then none else some t

/-- create_ttree_index, Db/dbindex.c:1371-1423: all records that have the column and match -/
def Cfg.build (C : Cfg) (s : St) (col : Nat) (t : Option (List Word)) : Hdr :=
  s.live.foldl (fun h r => if col ≥ (s.fields r).length then h
    else if C.matches_ h (s.fields r) then { h with rows := (r, keyOf h (s.fields r)) :: h.rows } else h) ⟨col, t, []⟩

/-- calls of the functions of the database -/
inductive Op where
  /-- wg_create_record that gives this record -/
  | create (r : Row) (len : Nat)
  /-- wg_create_array and wg_create_object, and wg_create_triple with three fields -/
  | schema (r : Row) (len : Nat)
  /-- wg_set_new_field of a field the record has (without CHECK other fields are not refused) -/
  | setNew (r : Row) (i : Nat) (v : Word)
  /-- wg_set_field -/
  | set (r : Row) (i : Nat) (v : Word)
  /-- wg_delete_record; `bound`: in which indexes a search for the key finds a bounding node when the row is not there -/
  | delete (r : Row) (bound : Nat → Bool)
  /-- wg_create_index of a T-tree -/
  | index (col : Nat) (matchrec : Option (List Word))
  /-- wg_drop_index of the index with this number in the list -/
  | drop (n : Nat)

/-- a new record, all fields NULL, Db/dbdata.c:187-239; the allocator gives no record that is in use -/
def St.fresh (s : St) (r : Row) (len : Nat) : St :=
  { s with live := s.live ++ [r], fields := fun x => if x = r then List.replicate len 0 else s.fields x }

/-- One call.  With QUICK_REASONER (Db/dbdata.c:84) wg_create_record does not update the indexes
(160-170), wg_set_field does nothing (683-685) and wg_set_new_field only stores the value (909-912).  If
wg_index_del_rec fails then wg_delete_record gives -3 and the record stays (275-276). -/
def Cfg.step (C : Cfg) (s : St) : Op → St
  | .create r len => if r ∈ s.live then s else s.fresh r len
  | .schema r len => if r ∈ s.live then s else
      let s' := s.fresh r len
      { s' with idxs := C.addRec s'.idxs (s'.fields r) r }
  | .setNew r i v => { s with fields := fun x => if x = r then (s.fields r).set i v else s.fields x }
  | .set _ _ _ => s
  | .delete r bound => if r ∈ s.live then match C.delRec bound s.idxs (s.fields r) r with
      | (idxs, true) => { s with live := s.live.erase r, idxs := idxs }
      | (idxs, false) => { s with idxs := idxs }
    else s
  | .index col m => match C.checkIndex s.idxs col m with
    | none => s
    | some t => { s with idxs := s.idxs ++ [C.build s col t] }
  | .drop n => { s with idxs := s.idxs.eraseIdx n }

/-- a program -/
def Cfg.run (C : Cfg) (ops : List Op) : St := ops.foldl C.step ⟨[], fun _ => [], []⟩

end Gkc.Hooks
