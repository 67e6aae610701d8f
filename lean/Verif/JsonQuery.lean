import Verif.HashIndex
/-
The query for JSON documents: the set of keys (Db/dbhash.c:692-701, 865-971), result sets (Db/dbquery.c:1332-1586), the search for the document of a record
(Db/dbschema.c:165-208) and wg_make_json_query (Db/dbquery.c:1588-2020).

Simplified: a result set is the list of its offsets (they are kept in pages of 63 and are never 0); there is always memory.
-/
namespace Gkc.Jq
open Gkc.Hx (Val Col le)

/-- rehash_gint, Db/dbhash.c:692-701 -/
def rehash (k : Nat) : Nat :=
  ((le 8 k).foldl (fun (h : UInt64) b => (h ^^^ b.toUInt64) * 1099511628211) 14695981039346656037).toNat

/-- the table of dhash_size, Db/dbhash.c:867-873 -/
def primes : List Nat := [
  389, 769, 1543, 3079, 6151,
  12289, 24593, 49157, 98317, 196613,
  393241, 786433, 1572869, 3145739, 6291469,
  12582917, 25165843, 50331653, 100663319, 201326611,
  402653189, 805306457, 1610612741, 3221225473, 4294967291]

/-- p_count, Db/dbhash.c:874; the table has 25 members -/
def pCount : Nat := 20

/-- dhash_size, Db/dbhash.c:865-886: the loop ends at the member before the last one that is counted -/
def dhashSize (entries : Nat) : Nat :=
  if entries > 2147483645 then 0
  else
    let i := ((primes.take (pCount - 1)).findIdx? (· > 2 * entries)).getD (pCount - 1)
    primes[i]?.getD 0

/-- the table of keys, a free place is 0 -/
structure Keys where
  size : Nat
  slot : Nat → Nat

/-- wg_dhash_init, Db/dbhash.c:924-935 -/
def initKeys (entries : Nat) : Option Keys :=
  if dhashSize entries = 0 then none else some ⟨dhashSize entries, fun _ => 0⟩

/-- DHASH_PROBE, Db/dbhash.c:890, in words of 64 bits -/
def probe (h1 h2 sz i : Nat) : Nat := (h1 + i * h2) % 2 ^ 64 % sz

/-- the key is there or the place is free -/
def Keys.stops (t : Keys) (key b : Nat) : Bool := t.slot b == key || t.slot b == 0

/-- the loop of dhash_lookup, Db/dbhash.c:910-914: `n` more rounds, from `i`, the last place was `b` -/
def scan (t : Keys) (key h1 h2 : Nat) : Nat → Nat → Nat → Nat
  | 0, _, b => b
  | n + 1, i, _ =>
    let b := probe h1 h2 t.size i
    if t.stops key b then b else scan t key h1 h2 n (i + 1) b

/-- dhash_lookup, Db/dbhash.c:899-916 -/
def lookup (t : Keys) (key : Nat) : Nat :=
  let h := rehash key
  let h1 := h % t.size
  if t.stops key h1 then h1 else scan t key h1 (1 + h % (t.size - 1)) (t.size - 1) 1 h1

/-- wg_dhash_addkey, Db/dbhash.c:953-961 -/
def addKey (t : Keys) (key : Nat) : Keys × Int :=
  let b := lookup t key
  if t.slot b = 0 then ({ t with slot := fun j => if j = b then key else t.slot j }, 0)
  else if t.slot b ≠ key then (t, -1) else (t, 0)

/-- wg_dhash_haskey, Db/dbhash.c:968-971 -/
def hasKey (t : Keys) (key : Nat) : Bool := t.slot (lookup t key) == key

/-- all of these, Db/dbquery.c:1478-1484 -/
def addKeys : List Nat → Keys → Option Keys
  | [], t => some t
  | k :: ks, t => if (addKey t k).2 ≠ 0 then none else addKeys ks (addKey t k).1

/-- intersect_resultset, Db/dbquery.c:1449-1516 -/
def intersect (a b : List Nat) : Option (List Nat) :=
  if a.length * b.length < 200 then some (a.filter fun x => b.any (x == ·))
  else
    let p := if a.length > b.length then (b, a) else (a, b)
    match initKeys p.1.length with
    | none => none
    | some t => match addKeys p.1 t with
      | none => none
      | some t => some (p.2.filter (hasKey t))

/-- the nested loop of unique_resultset, Db/dbquery.c:1565-1585 -/
def uniqueNested : List Nat → List Nat → List Nat
  | [], u => u
  | x :: xs, u => uniqueNested xs (if u.any (x == ·) then u else u ++ [x])

/-- the other loop, Db/dbquery.c:1550-1562 -/
def uniqueHash : List Nat → Keys → List Nat → Option (List Nat)
  | [], _, u => some u
  | x :: xs, t, u =>
    if hasKey t x then uniqueHash xs t u
    else if (addKey t x).2 ≠ 0 then none
    else uniqueHash xs (addKey t x).1 (u ++ [x])

/-- unique_resultset, Db/dbquery.c:1528-1586 -/
def unique (l : List Nat) : Option (List Nat) :=
  if l.length < 20 then some (uniqueNested l [])
  else match initKeys l.length with
    | none => none
    | some t => uniqueHash l t []

/-- The database: the records in the order of wg_get_next_record; the key and the value of a record (columns 1 and 2) if it is long enough; the records its
columns refer to; the records that refer to it; the records that are documents; and whether WG_COMPARE finds two values equal. -/
structure World where
  rows : List Nat
  kv : Nat → Option (Val × Col)
  kids : Nat → List Nat
  parents : Nat → List Nat
  isDoc : Nat → Bool
  same : Val → Val → Bool

/-- wg_json_query_arg -/
structure Arg where
  key : Val
  value : Val

/-- the loop over the backlinks, Db/dbschema.c:194-203 -/
def firstOf (f : Nat → Option Nat) : List Nat → Option Nat
  | [] => none
  | p :: ps => match f p with
    | some d => some d
    | none => firstOf f ps

/-- find_document_recursive, Db/dbschema.c:186-208 -/
def findDoc (w : World) : Nat → Nat → Option Nat
  | 0, r => if w.isDoc r then some r else none
  | n + 1, r => if w.isDoc r then some r else firstOf (findDoc w n) (w.parents r)

/-- the value of a record matches, Db/dbquery.c:1616-1626, 1661-1670 -/
def hitValue (w : World) (c : Col) (v : Val) : Bool :=
  w.same c.word v || match c with
    | .arr _ l => l.any (w.same · v)
    | .val _ => false

/-- ADD_DOC_TO_RESULTSET, Db/dbquery.c:1596-1605: `none` is an error, otherwise whether something was added, and the set; the depth is
WG_COMPARE_REC_DEPTH-1 -/
def addDoc (w : World) (r : Nat) (s : List Nat) : Option (Bool × List Nat) :=
  match findDoc w 6 r with
  | some d => some (true, s ++ [d])
  | none => none

/-- check_and_merge_by_kv, Db/dbquery.c:1645-1676 -/
def byKv (w : World) (a : Arg) (r : Nat) (s : List Nat) : Option (Bool × List Nat) :=
  match w.kv r with
  | none => some (false, s)
  | some (k, c) => if w.same k a.key && hitValue w c a.value then addDoc w r s else some (false, s)

/-- check_and_merge_by_key, Db/dbquery.c:1684-1707 -/
def byKey (w : World) (a : Arg) (r : Nat) (s : List Nat) : Option (Bool × List Nat) :=
  match w.kv r with
  | none => some (false, s)
  | some (_, c) => if hitValue w c a.value then addDoc w r s else some (false, s)

/-- the loop over the columns with records, Db/dbquery.c:1731-1742 -/
def overKids (f : Nat → List Nat → Option (Bool × List Nat)) : List Nat → List Nat → Option (Bool × List Nat)
  | [], s => some (false, s)
  | k :: ks, s => match f k s with
    | some (false, s') => overKids f ks s'
    | x => x

/-- check_and_merge_recursively, Db/dbquery.c:1718-1744 -/
def byDoc (w : World) (a : Arg) : Nat → Nat → List Nat → Option (Bool × List Nat)
  | 0, r, s => match byKv w a r s with
    | some (false, _) => none
    | x => x
  | n + 1, r, s => match byKv w a r s with
    | some (false, s') => overKids (byDoc w a n) (w.kids r) s'
    | x => x

/-- for all of them -/
def over (f : Nat → List Nat → Option (Bool × List Nat)) : List Nat → List Nat → Option (List Nat)
  | [], s => some s
  | r :: rs, s => match f r s with
    | none => none
    | some (_, s') => over f rs s'

/-- The indexes that can be used: what a hash index on key and value gives (C70), and what a T-tree index on the key gives (C53).  The second one is used only
if there is no index on values (Db/dbquery.c:1812-1820). -/
structure Indexes where
  hash : Option (Val → Val → List Nat)
  key : Option (Val → List Nat)

/-- the type is WG_RECORDTYPE -/
def isRecord : Val → Bool
  | .record _ => true
  | _ => false

/-- prepare_json_arglist, Db/dbquery.c:1776-1800: records come last -/
def sorted (args : List Arg) : List Arg :=
  if args.length > 1 then args.filter (fun a => !isRecord a.value) ++ args.filter (fun a => isRecord a.value) else args

/-- the set for one argument without the hash index, Db/dbquery.c:1905-1977: from the index on the keys, from the documents found so far or
from all records; and whether it is still to be merged with the current one -/
def searched (w : World) (ix : Indexes) (a : Arg) (cur : Option (List Nat)) : Option (List Nat × Bool) :=
  match ix.key with
  | some k => (over (byKey w a) (k a.key) []).map (·, true)
  | none => match cur with
    | some c => (over (byDoc w a 7) c []).map (·, false)
    | none => (over (byKv w a) w.rows []).map (·, true)

/-- the set for one argument, Db/dbquery.c:1875-1977: the hash index is not used for a record -/
def nextSet (w : World) (ix : Indexes) (a : Arg) (cur : Option (List Nat)) : Option (List Nat × Bool) :=
  match ix.hash, isRecord a.value with
  | some h, false => (over (addDoc w) (h a.key a.value) []).map (·, true)
  | _, _ => searched w ix a cur

/-- one round, Db/dbquery.c:1865-2002 -/
def roundOf (w : World) (ix : Indexes) (a : Arg) (cur : Option (List Nat)) : Option (List Nat) :=
  match nextSet w ix a cur with
  | none => none
  | some (s, merge) => match unique s with
    | none => none
    | some u => match cur, merge with
      | some c, true => intersect c u
      | _, _ => some u

/-- all rounds -/
def rounds (w : World) (ix : Indexes) : List Arg → Option (List Nat) → Option (List Nat)
  | [], cur => cur
  | a :: as, cur => match roundOf w ix a cur with
    | none => none
    | some s => rounds w ix as (some s)

/-- wg_make_json_query, Db/dbquery.c:1830-2025: the documents, or an error; without arguments it is an error -/
def query (w : World) (ix : Indexes) (args : List Arg) : Option (List Nat) := rounds w ix (sorted args) none

end Gkc.Jq
