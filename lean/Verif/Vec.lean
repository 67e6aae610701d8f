import Verif.Unify
/-
Growable vectors, Reasoner/mem.c:170-420, the hash value of a term, Reasoner/hash.c:327-355, and
term hash tables, Reasoner/hash.c:870-1010.

A vector is the list of its allocated words: word 0 is the usable length, word 1 of a "cvec" the
next free position.  `junk` gives the content of memory obtained from malloc and realloc.  The
result `none` is an access outside the allocated words or an overflow of `int`.  Memory
allocation always succeeds.
-/
namespace Gkc.Vec

/-- reading a word -/
def rd (v : List Int) (i : Nat) : Option Int := v[i]?
/-- writing a word -/
def wr (v : List Int) (i : Nat) (e : Int) : Option (List Int) :=
  if i < v.length then some (v.set i e) else none

/-- wr_vec_new and wr_vec_new_zero, Reasoner/mem.c:177-223: calloc of len+2 words -/
def vecNew (len : Nat) : List Int := (len : Int) :: List.replicate (len + 1) 0

/-- wr_cvec_new, Reasoner/mem.c:251-274: malloc of len+2 words, CVEC_START is 2 -/
def cvecNew (junk : Nat → Int) (len : Nat) : List Int := (len : Int) :: 2 :: (List.range len).map junk

/-- the doubling loop of wr_vec_realloc, Reasoner/mem.c:358 -/
def growLen (i n : Nat) : Option Nat :=
  if n > 2147483647 then none
  else if n = 0 then none
  else if i > n then growLen i (n * 2)
  else some n
termination_by i - n

/-- wr_vec_realloc, Reasoner/mem.c:346-371 -/
def vecRealloc (junk : Nat → Int) (v : List Int) (i : Nat) : Option (List Int) :=
  match rd v 0 with
  | none => none
  | some vlen =>
    if (i : Int) ≤ vlen then some v
    else match growLen i (if vlen ≤ 0 then 2 else vlen.toNat * 2) with
      | none => none
      | some nlen => wr (v.take (nlen + 1) ++ (List.range (nlen + 1 - v.length)).map junk) 0 nlen

/-- wr_vec_store, Reasoner/mem.c:382-402 -/
def vecStore (junk : Nat → Int) (v : List Int) (i : Nat) (e : Int) : Option (List Int) :=
  match rd v 0 with
  | none => none
  | some vlen =>
    if (i : Int) ≤ vlen then wr v i e
    else (vecRealloc junk v i).bind fun v => wr v i e

/-- wr_cvec_store, Reasoner/mem.c:412-421 -/
def cvecStore (junk : Nat → Int) (v : List Int) (i : Nat) (e : Int) : Option (List Int) :=
  (vecStore junk v i e).bind fun v =>
    match rd v 1 with
    | none => none
    | some nx => if nx ≤ (i : Int) then wr v 1 (i + 1) else some v

/-- wr_cvec_push, Reasoner/mem.c:430-435 -/
def cvecPush (junk : Nat → Int) (v : List Int) (e : Int) : Option (List Int) :=
  match rd v 1 with
  | none => none
  | some nx => cvecStore junk v nx.toNat e

/-! ### Hash value of a term -/

/-- `hash<0 → 0-hash` on 64 bits -/
def absW (x : BitVec 64) : BitVec 64 := if x.toInt < 0 then 0 - x else x

mutual
/-- wr_term_hash, Reasoner/hash.c:327-355; `h` is wr_term_basehash (of variables too); the
multiplication by shifts wraps -/
def termHash (h : Nat ⊕ Const → BitVec 64) : Term → BitVec 64
  | .var v => h (.inl v)
  | .const c => h (.inr c)
  | .app f as =>
    let r := termHashL h (absW (h (.inr f))) as
    absW (BitVec.ofInt 64 (r.toInt.tmod 999998))
/-- the field loop, Reasoner/hash.c:346-351 -/
def termHashL (h : Nat ⊕ Const → BitVec 64) (hash : BitVec 64) : List Term → BitVec 64
  | [] => hash
  | a :: as => termHashL h (absW (termHash h a + (hash <<< 6) + (hash <<< 16) - hash)) as
end

/-! ### Term hash tables -/

/-- a table: the length word of the array and the bucket vectors at positions 1.. (`none` = 0) -/
structure TH where
  len : Nat
  bk : Nat → Option (List Int)

/-- an empty table of the given length (wr_vec_new_zero, Reasoner/glb.c:640-650) -/
def TH.new (len : Nat) : TH := ⟨len, fun _ => none⟩

/-- the position of a bucket, Reasoner/hash.c:922-927 and 981-986; `hash` is an `int`.  `none`:
position outside the array. -/
def slot (t : TH) (hash : Int) : Option Nat :=
  let hash := if hash < 0 then 0 - hash else hash
  let hash := if hash + 1 ≥ t.len then hash.tmod (t.len - 1) else hash
  if 1 ≤ hash + 1 ∧ hash + 1 < t.len then some (hash + 1).toNat else none

/-- wr_push_offset_termhash, Reasoner/hash.c:915-955; TERMHASH_INITIAL_BUCKETSIZE is 4 -/
def pushTH (junk : Nat → Int) (t : TH) (hash : Int) (term cl : Int) : Option TH :=
  (slot t hash).bind fun s =>
    let v := (t.bk s).getD (cvecNew junk 4)
    (cvecPush junk v term).bind fun v =>
      (cvecPush junk v cl).map fun v => { t with bk := fun i => if i = s then some v else t.bk i }

/-- the loop over a bucket, Reasoner/hash.c:997-1010, with `n` steps at most; `tm` gives the term at
an offset.  The outer `none` is a wrong access, the inner one NULL. -/
def findLoop (tm : Int → Term) (x : Int) (v : List Int) : Nat → Nat → Option (Option Int)
  | 0, _ => some none
  | n + 1, j =>
    match rd v 0, rd v 1 with
    | some len, some nx =>
      if (j : Int) < len ∧ (j : Int) < nx then
        match rd v j with
        | none => none
        | some y =>
          if eqTerm (tm x) (tm y) then (rd v (j + 1)).map some
          else findLoop tm x v n (j + 2)
      else some none
    | _, _ => none

/-- wr_find_offset_termhash, Reasoner/hash.c:966-1013 -/
def findTH (tm : Int → Term) (t : TH) (x : Int) (hash : Int) : Option (Option Int) :=
  (slot t hash).bind fun s =>
    match t.bk s with
    | none => some none
    | some v => findLoop tm x v v.length 2

end Gkc.Vec
