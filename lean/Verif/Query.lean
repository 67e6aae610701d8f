import Verif.TTree
/-
Queries (Db/dbquery.c:130-1104, 2035-2144).

Simplified: the records of the database are given as the list in which wg_get_first_record and
wg_get_next_record give them; the place of a full scan (curr_record) is the list of the records to
come; allocation with malloc always succeeds; index headers are below 2^31 (Db/dbquery.c:143 keeps
them in an int); only `direction == 1`, which is the only direction ever set (Db/dbquery.c:728).
-/
namespace Gkc.Query
open Gkc.Compare (Word)
open Gkc.TTree

/-- WG_COND_..., Db/dbquery.h:41-46; `other`: any other number -/
inductive Cond where
  | eq | ne | lt | gt | le | ge | other
  deriving DecidableEq

/-- wg_query_arg, Db/dbquery.h:56-60 -/
structure Arg where
  column : Nat
  cond : Cond
  value : Word
  deriving DecidableEq

/-- the type of an index, and the T-tree -/
inductive Kind where
  | ttree (ix : Idx)
  | hash

/-- wg_index_header; `tmpl`: the match record of the template, if there is one -/
structure Index where
  kind : Kind
  tmpl : Option (List Word)

/-- what queries see of a database -/
structure Db where
  /-- WG_COMPARE -/
  cmp : Word → Word → Ordering
  /-- wg_get_encoded_type is WG_VARTYPE -/
  isVar : Word → Bool
  /-- WG_ILLEGAL -/
  ill : Word
  /-- wg_get_first_record, wg_get_next_record -/
  recs : List Row
  /-- wg_get_record_len, wg_get_field -/
  fields : Row → List Word
  /-- index_table -/
  idxs : Nat → List Index

/-- a column and the order of values, for T-trees; rows in an index have the column -/
def Db.env (d : Db) (c : Nat) : Env := ⟨fun r => (d.fields r).getD c 0, d.cmp, d.ill⟩

/-! ### Conditions -/

/-- the switch in check_arglist, Db/dbquery.c:302-329; `o`: WG_COMPARE(db, encoded, value) -/
def Cond.test (o : Ordering) : Cond → Bool
  | .eq => o = .eq
  | .lt => o = .lt
  | .gt => o = .gt
  | .le => o ≠ .gt
  | .ge => o ≠ .lt
  | .ne => o ≠ .eq
  | .other => true

/-- check_arglist, Db/dbquery.c:285-333 -/
def Db.check (d : Db) (args : List Arg) (r : Row) : Bool :=
  args.all fun a => match (d.fields r)[a.column]? with
    | none => false
    | some w => a.cond.test (d.cmp w a.value)

/-- the fields of a match record as conditions, Db/dbquery.c:418-427 -/
def Db.matchArgs (d : Db) : Nat → List Word → List Arg
  | _, [] => []
  | i, w :: ws => if d.isVar w then d.matchArgs (i + 1) ws else ⟨i, .eq, w⟩ :: d.matchArgs (i + 1) ws

/-- prepare_params, Db/dbquery.c:350-436 -/
def Db.params (d : Db) (matchrec : List Word) (args : List Arg) : List Arg := args ++ d.matchArgs 0 matchrec

/-! ### Choice of an index -/

/-- MAX_INDEXED_FIELDNR, Db/dballoc.h:265 -/
def maxIndexed : Nat := 127

/-- the score of one condition, Db/dbquery.c:175-193 -/
def Arg.score (a : Arg) : Int := match a.cond with
  | .eq => if a.value = 0 then 4 else 5
  | .lt | .gt | .le | .ge => 2
  | _ => 0

/-- the slot of the column gets the score, Db/dbquery.c:165-193 -/
def addScore (c : Nat) (s : Int) : List (Nat × Int) → List (Nat × Int)
  | [] => [(c, s)]
  | (c', s') :: xs => if c' = c then (c', s' + s) :: xs else (c', s') :: addScore c s xs

/-- the columns with their scores, Db/dbquery.c:158-194 -/
def scores (args : List Arg) : List (Nat × Int) := args.foldl (fun l a => addScore a.column a.score l) []

/-- does the template fit the conditions? Db/dbquery.c:225-251, from field `j` on; the score is
kept also when it does not fit -/
def Db.tmplFit (d : Db) (args : List Arg) : Nat → List Word → Int → Int × Bool
  | _, [], s => (s, true)
  | j, w :: ws, s =>
    if d.isVar w then d.tmplFit args (j + 1) ws s
    else
      let as := args.filter fun a => a.column = j
      if as ≠ [] ∧ as.all (fun a => a.cond = .eq ∧ d.cmp w a.value = .eq) then
        d.tmplFit args (j + 1) ws (s + 5 + if w = 0 then -1 else 0)
      else (s, false)

/-- the first usable index of a column, Db/dbquery.c:204-262 -/
def Db.pickIndex (d : Db) (args : List Arg) : List Index → Int → Int × Option Idx
  | [], s => (s, none)
  | x :: xs, s => match x.kind with
    | .hash => d.pickIndex args xs s
    | .ttree ix => match x.tmpl with
      | none => (s, some ix)
      | some t => match d.tmplFit args 0 t s with
        | (s', true) => (s', some ix)
        | (s', false) => d.pickIndex args xs s'

/-- the loop over the columns, Db/dbquery.c:197-271 -/
def Db.bestColumn (d : Db) (args : List Arg) : List (Nat × Int) → Int → Option (Nat × Idx) → Option (Nat × Idx)
  | [], _, best => best
  | (c, s) :: xs, m, best =>
    let p := if c ≤ maxIndexed then d.pickIndex args (d.idxs c) s else (s, none)
    let s' := if p.2.isSome then p.1 else 0
    if s' > m then d.bestColumn args xs s' (p.2.map fun ix => (c, ix)) else d.bestColumn args xs m best

/-- most_restricting_column, Db/dbquery.c:137-279: a column and its index, if the best has one -/
def Db.restricting (d : Db) (args : List Arg) : Option (Nat × Idx) := d.bestColumn args (scores args) (-1) none

/-! ### Bounds -/

/-- start_bound, end_bound, start_inclusive, end_inclusive; `ne`: is there a condition "not equal"? -/
structure Bounds where
  lo : Word
  hi : Word
  loInc : Bool
  hiInc : Bool
  ne : Bool
  deriving DecidableEq

/-- one condition, Db/dbquery.c:753-812 -/
def Db.narrow (d : Db) (b : Bounds) (a : Arg) : Bounds :=
  let lower (b : Bounds) (yes inc : Bool) : Bounds :=
    if b.lo = d.ill ∨ yes then { b with lo := a.value, loInc := inc } else b
  let upper (b : Bounds) (yes inc : Bool) : Bounds :=
    if b.hi = d.ill ∨ yes then { b with hi := a.value, hiInc := inc } else b
  match a.cond with
  | .eq =>
    let b1 := lower b (d.cmp b.lo a.value = .lt) true
    upper b1 (d.cmp b1.hi a.value = .gt) true
  | .lt => upper b (d.cmp b.hi a.value ≠ .lt) false
  | .gt => lower b (d.cmp b.lo a.value ≠ .gt) false
  | .le => upper b (d.cmp b.hi a.value = .gt) true
  | .ge => lower b (d.cmp b.lo a.value = .lt) true
  | .ne => { b with ne := true }
  | .other => b

/-- the bounds for the column, Db/dbquery.c:718-813 -/
def Db.bounds (d : Db) (args : List Arg) (c : Nat) : Bounds :=
  (args.filter fun a => a.column = c).foldl d.narrow ⟨d.ill, d.ill, false, false, false⟩

/-! ### The place in the index -/

/-- TNODE_SUCCESSOR -/
def nextIn (x : Nat) : List Nat → Option Nat
  | y :: z :: ys => if y = x then some z else nextIn x (z :: ys)
  | _ => none

/-- TNODE_PREDECESSOR -/
def prevIn (x : Nat) : List Nat → Option Nat
  | y :: z :: ys => if z = x then some y else prevIn x (z :: ys)
  | _ => none

/-- offsettoptr -/
def nodeOf (ix : Idx) (i : Nat) : Option Node := ix.tree.nodes.find? fun n => n.id = i

/-- the node a search has found -/
def nodeAt (ix : Idx) : Option Found → Option (Node × Bound)
  | some (.at_ p b) => match ix.tree.get p with
    | some (.node n _ _) => some (n, b)
    | _ => none
  | _ => none

/-- node and slot: curr_offset and curr_slot, Db/dbquery.c:457-525; `none`: undefined, `some none`: -1
is returned -/
def startPos (E : Env) (ix : Idx) (lo : Word) (inc : Bool) : Option (Option (Option Nat × Nat)) :=
  if lo = E.ill then some (some (ix.chain.head?, 0))
  else if inc then match nodeAt ix (leftmost E lo ix.tree none) with
    | none => none
    | some (n, .really) => match tnodeFirst E lo n.vals with
      | none => some none
      | some s => some (some (some n.id, s))
    | some (n, .deadRight) => some (some (nextIn n.id ix.chain, 0))
    | some (n, .deadLeft) => some (some (some n.id, 0))
  else match nodeAt ix (rightmost E lo ix.tree none) with
    | none => none
    | some (n, .really) => match tnodeLast E lo n.vals with
      | none => some none
      | some s => if n.vals.length ≤ s + 1 then some (some (nextIn n.id ix.chain, 0)) else some (some (some n.id, s + 1))
    | some (n, .deadRight) => some (some (nextIn n.id ix.chain, 0))
    | some (n, .deadLeft) => some (some (some n.id, 0))

/-- the last slot of a node, if there is a node; the slot is -1 otherwise (Db/dbquery.c:727, 2050) -/
def lastSlot (ix : Idx) : Option Nat → Option (Option (Option Nat × Int))
  | none => some (some (none, -1))
  | some i => (nodeOf ix i).map fun n => some (some i, (n.vals.length : Int) - 1)

/-- end_offset and end_slot, Db/dbquery.c:529-606 -/
def endPos (E : Env) (ix : Idx) (hi : Word) (inc : Bool) : Option (Option (Option Nat × Int)) :=
  if hi = E.ill then lastSlot ix ix.chain.getLast?
  else if inc then match nodeAt ix (rightmost E hi ix.tree none) with
    | none => none
    | some (n, .really) => match tnodeLast E hi n.vals with
      | none => some none
      | some s => some (some (some n.id, (s : Int)))
    | some (n, .deadRight) => some (some (some n.id, (n.vals.length : Int) - 1))
    | some (n, .deadLeft) => lastSlot ix (prevIn n.id ix.chain)
  else match nodeAt ix (leftmost E hi ix.tree none) with
    | none => none
    | some (n, .really) => match tnodeFirst E hi n.vals with
      | none => some none
      | some 0 => lastSlot ix (prevIn n.id ix.chain)
      | some (s + 1) => some (some (some n.id, (s : Int)))
    | some (n, .deadRight) => some (some (some n.id, (n.vals.length : Int) - 1))
    | some (n, .deadLeft) => lastSlot ix (prevIn n.id ix.chain)

/-- curr_offset, curr_slot, end_offset, end_slot -/
structure Cursor where
  cur : Option Nat
  slot : Nat
  stop : Option Nat
  stopSlot : Int
  deriving DecidableEq

/-- ranges seen to be empty, Db/dbquery.c:611-638 -/
def settle (ix : Idx) (c : Cursor) : Cursor := match c.cur with
  | none => { c with stop := none }
  | some i =>
    if c.stop = some i ∧ c.stopSlot < c.slot then { c with cur := none, stop := none }
    else if c.stop = none then { c with cur := none }
    else if c.stop = prevIn i ix.chain then { c with cur := none, stop := none }
    else c

/-- find_ttree_bounds, Db/dbquery.c:445-645 -/
def findBounds (E : Env) (ix : Idx) (lo hi : Word) (loInc hiInc : Bool) : Option (Option Cursor) :=
  match startPos E ix lo loInc with
  | none => none
  | some none => some none
  | some (some (co, cs)) => match endPos E ix hi hiInc with
    | none => none
    | some none => some none
    | some (some (eo, es)) => some (some (settle ix ⟨co, cs, eo, es⟩))

/-! ### Fetching -/

/-- QUERY_RESULTSET_PAGESIZE, Db/dbquery.c:57 -/
def pageSize : Nat := 63

/-- wg_query, Db/dbquery.h:68-88, by qtype; a page is a list of the rows put in it, the others are 0 -/
inductive Query where
  | ttree (ix : Idx) (cur : Cursor) (args : List Arg)
  | scan (rest : List Row) (args : List Arg)
  | pages (ps : List (List Row)) (pidx : Nat) (count : Nat)

/-- the row at the cursor and the cursor moved on, Db/dbquery.c:1023-1071; `none`: undefined (a slot
that was never filled, or no node), `some none`: no more nodes -/
def stepT (ix : Idx) (c : Cursor) : Option (Option (Row × Cursor)) := match c.cur with
  | none => some none
  | some i => match nodeOf ix i with
    | none => none
    | some n => match n.vals[c.slot]? with
      | none => none
      | some r =>
        if c.stop = some i ∧ c.stopSlot = c.slot then some (some (r, { c with cur := none }))
        else if c.slot + 1 ≥ n.vals.length then some (some (r, { c with cur := nextIn i ix.chain, slot := 0 }))
        else some (some (r, { c with slot := c.slot + 1 }))

/-- wg_fetch for T-trees, Db/dbquery.c:1022-1079; the loop ends after at most `fuel` rounds, else `none` -/
def fetchT (d : Db) (ix : Idx) (args : List Arg) : Nat → Cursor → Option (Option Row × Cursor)
  | 0, _ => none
  | fuel + 1, c => match stepT ix c with
    | none => none
    | some none => some (none, c)
    | some (some (r, c')) => if d.check args r then some (some r, c') else fetchT d ix args fuel c'

/-- wg_fetch for scans, Db/dbquery.c:994-1017 -/
def fetchS (d : Db) (args : List Arg) : List Row → Option Row × List Row
  | [] => (none, [])
  | r :: rs => if d.check args r then (some r, rs) else fetchS d args rs

/-- wg_fetch for pages, Db/dbquery.c:1081-1099 -/
def fetchP (ps : List (List Row)) (pidx count : Nat) : Option Row × Query := match ps with
  | [] => (none, .pages [] pidx count)
  | p :: ps' =>
    let offset := p.getD pidx 0
    if offset = 0 then (none, .pages [] (pidx + 1) count)
    else if pidx + 1 ≥ pageSize then (some offset, .pages ps' 0 count)
    else (some offset, .pages (p :: ps') (pidx + 1) count)

/-- no walk along the nodes is longer -/
def rowCount (ix : Idx) : Nat := (ix.tree.nodes.map fun n => n.vals.length).sum

/-- wg_fetch, Db/dbquery.c:976-1104; `none`: undefined -/
def Db.fetch (d : Db) : Query → Option (Option Row × Query)
  | .ttree ix c args => (fetchT d ix args (rowCount ix + 1) c).map fun (r, c') => (r, .ttree ix c' args)
  | .scan rest args => let (r, rest') := fetchS d args rest
    some (r, .scan rest' args)
  | .pages ps i n => some (fetchP ps i n)

/-- a row put in the last page, or in a new one, Db/dbquery.c:917-931 -/
def addRow (ps : List (List Row)) (r : Row) : List (List Row) := match ps.getLast? with
  | none => [[r]]
  | some p => if p.length ≥ pageSize then ps ++ [[r]] else ps.dropLast ++ [p ++ [r]]

/-- the loop that fetches all rows, or `limit` rows if that is not zero, Db/dbquery.c:916-935 -/
def Db.gather (d : Db) (limit : Nat) : Nat → Query → List (List Row) → Nat → Option Query
  | 0, _, _, _ => none
  | fuel + 1, q, ps, n => match d.fetch q with
    | none => none
    | some (none, _) => some (.pages ps 0 n)
    | some (some r, q') =>
      if limit ≠ 0 ∧ n + 1 ≥ limit then some (.pages (addRow ps r) 0 (n + 1))
      else d.gather limit fuel q' (addRow ps r) (n + 1)

/-- the query before rows are fetched, Db/dbquery.c:692-891: `none`: undefined, `some none`: NULL;
the flag: an empty query is returned at once (Db/dbquery.c:816-823) -/
def Db.plan (d : Db) (full : List Arg) : Option (Option (Query × Bool)) :=
  match d.restricting full with
  | none => some (some (.scan d.recs full, false))
  | some (c, ix) =>
    let b := d.bounds full c
    if b.lo ≠ d.ill ∧ b.hi ≠ d.ill ∧ d.cmp b.lo b.hi = .gt then
      some (some (.ttree ix ⟨none, 0, none, -1⟩ [], true))
    else match findBounds (d.env c) ix b.lo b.hi b.loInc b.hiInc with
      | none => none
      | some none => some none
      | some (some cur) =>
        some (some (.ttree ix cur (if b.ne then full else full.filter fun a => a.column ≠ c), false))

/-- no query gives more rows -/
def Query.size (d : Db) : Query → Nat
  | .ttree ix _ _ => rowCount ix
  | .scan rest _ => rest.length
  | .pages _ _ n => n

/-- wg_make_query_rc, and wg_make_query with limit 0, Db/dbquery.c:668-970 -/
def Db.makeQuery (d : Db) (matchrec : List Word) (args : List Arg) (limit : Nat) : Option (Option Query) :=
  match d.plan (d.params matchrec args) with
  | none => none
  | some none => some none
  | some (some (q, true)) => some (some q)
  | some (some (q, false)) => (d.gather limit (q.size d + 1) q [] 0).map some

/-- res_count; `none`: never set -/
def Query.count : Query → Option Nat
  | .pages _ _ n => some n
  | _ => none

/-! ### Simple queries -/

/-- wg_multi_column_to_index_id for one column, T-trees, no template, Db/dbindex.c:2397-2483 -/
def Db.plainIndex (d : Db) (c : Nat) : Option Idx :=
  if c ≤ maxIndexed then
    (d.idxs c).findSome? fun x => match x.kind, x.tmpl with
      | .ttree ix, none => some ix
      | _, _ => none
  else none

/-- the walk to the last record, Db/dbquery.c:2083-2114; `prev`: the record before -/
def walk (ix : Idx) (last : Option Row) : Nat → Option Row → Cursor → Option (Option Row)
  | 0, _, _ => none
  | fuel + 1, prev, c => match stepT ix c with
    | none => none
    | some none => some none
    | some (some (r, c')) => if prev = last then some (some r) else walk ix last fuel (some r) c'

/-- wg_find_record, Db/dbquery.c:2035-2144; `none`: undefined, `some none`: NULL -/
def Db.findRecord (d : Db) (c : Nat) (cond : Cond) (v : Word) (last : Option Row) : Option (Option Row) :=
  let scan : Option (Option Row) :=
    let rest := match last with
      | none => d.recs
      | some r => (d.recs.dropWhile (· ≠ r)).drop 1
    some (rest.find? (d.check [⟨c, cond, v⟩]))
  let go (lo hi : Word) (loInc hiInc : Bool) (ix : Idx) : Option (Option Row) :=
    match findBounds (d.env c) ix lo hi loInc hiInc with
    | none => none
    | some none => some none
    | some (some cur) => walk ix last (rowCount ix + 1) none cur
  match cond, d.plainIndex c with
  | .ne, _ => scan
  | _, none => scan
  | .eq, some ix => go v v true true ix
  | .lt, some ix => go d.ill v true false ix
  | .gt, some ix => go v d.ill false true ix
  | .le, some ix => go d.ill v true true ix
  | .ge, some ix => go v d.ill true true ix
  | .other, some _ => some none

end Gkc.Query
