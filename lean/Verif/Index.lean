import Verif.Meta
/-
The literal index of the active clauses: prefix hashes (Reasoner/hash.c:250-313,
Reasoner/hash.h:60-61), hash chains (hash.c:518-600, 660-700), storing the literals of a clause
(Reasoner/clstore.c:285-405) and looking for resolution partners
(Reasoner/resolve.c:126-270).

`h` is wr_term_basehash.  Simplifications: `gint` arithmetic of WR_HASH_ADD wraps around (the
left shifts of large values overflow, which gcc compiles to wrapping); the first slot of a chain
node, which holds a counter in the head node and a term in the others, is two fields; clauses are
numbers; the external kb (resolve.c:183-186) is not attached; no res_arglen limits and no
backsubsumed clauses (resolve.c:243-275), so what is collected is what unification is tried on.
-/
namespace Gkc.Index

/-- WR_HASH_ADD, Reasoner/hash.h:60 -/
def hashAdd (toadd orig : BitVec 64) : BitVec 64 := toadd + (orig <<< 6) + (orig <<< 16) - orig

/-- int_hash, Reasoner/hash.c:447-454; the argument has been cut to an `int` -/
def intHash (x : Int) : Int :=
  let a := toI32 ((toI32 x * 2654435769).tmod 999998)
  if a ≥ 0 then a else 0 - a

/-- str_dual_hash, Reasoner/hash.c:481-507, the same as wg_str_dual_hash, Db/dbdata.c:3780, for a
string of plain characters and no second part -/
def strDualHash (s : String) : Int :=
  (s.toList.foldl (fun hash c => hashAdd (BitVec.ofNat 64 c.toNat) hash) (0 : BitVec 64)).truncate 32 |>.toInt

/-- wr_term_basehash, Reasoner/hash.c:357-445, for uris and integers; other types are not
modelled (value of int_hash 0) -/
def baseHash (c : Const) : BitVec 64 :=
  let hash := match c with
    | .sym s => strDualHash s
    | .int i => intHash i
    | .str _ => 0
    | .qsym _ => 0
    | .dbl _ => 0
    | .oth _ => 0
  let hash := if hash < 0 then 0 - hash else hash
  BitVec.ofInt 64 (1 + hash.tmod 999997)

/-- NROF_CLTERM_HASHVEC_ELS, Reasoner/glb.h -/
def vecEls : Nat := 1000000

/-- WR_HASH_NORM, Reasoner/hash.h:61: `1+((abs((int)tonorm)) % ((maxsize)-2))`.  `none`:
`abs(INT_MIN)`, whose value with gcc is negative, so that the bucket number is rejected by the
callers. -/
def hashNorm (x : BitVec 64) : Option Nat :=
  let i := (x.truncate 32).toInt
  if i = -2147483648 then none else some (1 + i.natAbs % (vecEls - 2))

/-- `preflen` and the array `prefhashes` -/
structure PH where
  n : Nat := 0
  h0 : BitVec 64 := 0
  h1 : BitVec 64 := 0
  h2 : BitVec 64 := 0
deriving DecidableEq

/-- the simple value branch of wr_atom_calc_prefhashes_aux, Reasoner/hash.c:284-302; `none` is a
variable; the flag is the return value -/
def leaf (h : Const → BitVec 64) (s : PH) : Option Const → PH × Bool
  | none => (s, false)
  | some c =>
    let s := { s with n := s.n + 1 }
    if s.n = 1 then ({ s with h0 := h c }, true)
    else if s.n = 2 then ({ s with h1 := hashAdd (h c) s.h0 }, true)
    else if s.n ≥ 3 then ({ s with h2 := hashAdd (h c) s.h1 }, false)
    else (s, true)

mutual
/-- wr_atom_calc_prefhashes_aux, Reasoner/hash.c:274-313 -/
def prefT (h : Const → BitVec 64) (s : PH) : Term → PH × Bool
  | .var _ => leaf h s none
  | .const c => leaf h s (some c)
  | .app f as => match leaf h s (some f) with
    | (s, false) => (s, false)
    | (s, true) => prefL h s as
/-- the field loop, Reasoner/hash.c:309-311 -/
def prefL (h : Const → BitVec 64) (s : PH) : List Term → PH × Bool
  | [] => (s, true)
  | a :: as => match prefT h s a with
    | (s, false) => (s, false)
    | (s, true) => prefL h s as
end

/-- wr_atom_calc_prefhashes, Reasoner/hash.c:250-271 -/
def pref (h : Const → BitVec 64) (x : Term) : PH := (prefT h {} x).1

/-- `prefhashes[j]` -/
def PH.at (s : PH) (j : Nat) : BitVec 64 := if j = 0 then s.h0 else if j = 1 then s.h1 else s.h2

/-- the bucket numbers an atom is stored under, Reasoner/clstore.c:368-373 -/
def storeKeys (h : Const → BitVec 64) (x : Term) : List (Option Nat) :=
  let s := pref h x
  (List.range s.n).map fun j => hashNorm (hashAdd (BitVec.ofNat 64 s.n - 1) (s.at j))

/-- the bucket numbers looked at for an atom, Reasoner/resolve.c:205-234 -/
def queryKeys (h : Const → BitVec 64) (x : Term) : List (Option Nat) :=
  let s := pref h x
  [0, 1, 2].map fun plen =>
    if s.n = 1 then hashNorm (hashAdd (BitVec.ofNat 64 plen) s.h0)
    else if s.n = 2 then
      if plen = 0 then hashNorm (hashAdd (BitVec.ofNat 64 plen) s.h0)
      else hashNorm (hashAdd (BitVec.ofNat 64 plen) s.h1)
    else hashNorm (hashAdd (BitVec.ofNat 64 plen) (s.at plen))

/-- a chain node, Reasoner/hash.h:41-46 -/
structure Node where
  len : Nat := 0
  term : Term := .var 0
  cl : Nat := 0
  path : Nat := 0
  next : Nat := 0
deriving Inhabited

/-- the hash vectors of the two signs and the node memory; the node at address `k+1` is `mem[k]`,
address 0 is NULL -/
structure Ix where
  cells : Bool → Nat → Nat
  mem : List Node

/-- wr_vec_new_zero, Reasoner/glb.c:623-626 -/
def Ix.empty : Ix := ⟨fun _ _ => 0, []⟩

/-- reading the node at an address -/
def node (mem : List Node) (a : Nat) : Node := mem.getD (a - 1) default

/-- writing the node at an address -/
def setNode (mem : List Node) (a : Nat) (n : Node) : List Node := mem.set (a - 1) n

/-- wr_clterm_add_hashlist_withpath, Reasoner/hash.c:523-598; `cap` bounds the node memory
(wr_alloc_from_cvec fails beyond); `none` is an error return, on which the callers exit -/
def add (cap : Nat) (ix : Ix) (sg : Bool) (hash : Nat) (term : Term) (cl path : Nat) : Option Ix :=
  if hash ≥ vecEls ∨ hash < 1 then none
  else
    let cell := ix.cells sg hash
    if cell = 0 then
      if ix.mem.length + 2 > cap then none
      else
        let prev := ix.mem.length + 1
        let new := ix.mem.length + 2
        some ⟨fun g k => if g = sg ∧ k = hash then prev else ix.cells g k,
          ix.mem ++ [{ len := 1, next := new }, { term := term, cl := cl, path := path, next := 0 }]⟩
    else
      if ix.mem.length + 1 > cap then none
      else
        let p := node ix.mem cell
        let new := ix.mem.length + 1
        some ⟨ix.cells, setNode ix.mem cell { p with len := p.len + 1, next := new }
          ++ [{ term := term, cl := cl, path := path, next := p.next }]⟩

/-- the loop storing one literal under all its bucket numbers, Reasoner/clstore.c:368-389 -/
def addKeys (cap : Nat) (ix : Ix) (sg : Bool) (term : Term) (cl : Nat) : List (Option Nat) → Option Ix
  | [] => some ix
  | none :: _ => none
  | some k :: ks => (add cap ix sg k term cl 0).bind fun ix => addKeys cap ix sg term cl ks

/-- is the word a record -/
def isRec : Term → Bool
  | .app _ _ => true
  | _ => false

/-- wr_cl_store_res_terms, Reasoner/clstore.c:285-405: a literal comes with its flag
`resolvability[i+1]`; `qf` is g->queryfocus_strat.  A clause that is a single positive atom
(ruleflag 0) is the one-literal list. -/
def storeCl (h : Const → BitVec 64) (cap : Nat) (qf : Bool) (cl : Nat) (ix : Ix) :
    List (Bool × Lit) → Option Ix
  | [] => some ix
  | (res, l) :: ls =>
    if !res && !qf then storeCl h cap qf cl ix ls
    else if !isRec l.atom then storeCl h cap qf cl ix ls
    else (addKeys cap ix l.neg l.atom cl (storeKeys h l.atom)).bind fun ix => storeCl h cap qf cl ix ls

/-- the loop over a chain, Reasoner/resolve.c:243-245 and the steps to the next node; `none` when
the budget runs out -/
def walk (mem : List Node) : Nat → Nat → Option (List (Term × Nat × Nat))
  | 0, a => if a = 0 then some [] else none
  | n + 1, a =>
    if a = 0 then some []
    else (walk mem n (node mem a).next).map (((node mem a).term, (node mem a).cl, (node mem a).path) :: ·)

/-- one bucket: wr_clterm_hashlist_len, wr_clterm_hashlist_start, Reasoner/hash.c:660-688 and
resolve.c:236-242.  `none`: exit with an error. -/
def bucket (ix : Ix) (sg : Bool) : Option Nat → Option (List (Term × Nat × Nat))
  | none => none
  | some k =>
    if k ≥ vecEls ∨ k < 1 then none
    else
      let cell := ix.cells sg k
      if cell = 0 then some []
      else if (node ix.mem cell).len = 0 then some []
      else
        let start := (node ix.mem cell).next
        if start = 0 then none
        else walk ix.mem ix.mem.length start

/-- candidates met for one literal of the given clause: the vector of the opposite sign,
Reasoner/resolve.c:168-169, and the loop over `plen`, 205-290 -/
def lookup (h : Const → BitVec 64) (ix : Ix) (l : Lit) : Option (List (Term × Nat × Nat)) :=
  (queryKeys h l.atom).foldr
    (fun k r => (bucket ix (!l.neg) k).bind fun b => r.map (b ++ ·)) (some [])

end Gkc.Index
