import Verif.Term
/-
Literal and clause summaries ("meta"), the quick checks built on them, and the literal sort:
Reasoner/clmeta.c, Reasoner/clterm.h, Reasoner/subsume.c.

Summary words are stored with encode_smallint, i.e. as `(i << 3) | 3`; all masks used on stored
words are shifted by the same 3 bits.  The model works with the payload `i`: shifting preserves
both the masks and the order.
-/
namespace Gkc

/-- a literal of a rule clause: sign and atom -/
structure Lit where
  neg : Bool
  atom : Term
deriving DecidableEq

/-- applying a substitution to a literal -/
def Lit.subst (θ : Nat → Term) (l : Lit) : Lit := ⟨l.neg, l.atom.subst θ⟩

/-- the part of `term_metacalc` used here (Reasoner/clmeta.h:60-75) -/
structure TMeta where
  hasvars : Bool := false
  depth : Nat := 0
  size : Nat := 0
  preflen : Nat := 0
  prefhash : Int := 0
  pref1 : Int := 0
  pref2 : Int := 0
  pref3 : Int := 0
deriving DecidableEq

/-- storing a 64-bit value in an `int` -/
def toI32 (x : Int) : Int := (BitVec.ofInt 32 x).toInt

/-- the simple value branch of wr_calc_term_meta, Reasoner/clmeta.c:617-642; `none` is a
variable.  `h` is wr_term_basehash. -/
def TMeta.leaf (h : Const → Int) (m : TMeta) (x : Option Const) : TMeta :=
  let m := { m with size := m.size + 1 }
  match x with
  | none => { m with hasvars := true }
  | some c =>
    if m.hasvars then m
    else
      let t := m.prefhash + h c
      let t := if t < 0 then 0 - t else t
      let m := { m with prefhash := toI32 t, preflen := m.preflen + 1 }
      if m.preflen = 1 then { m with pref1 := m.prefhash }
      else if m.preflen = 2 then { m with pref2 := m.prefhash }
      else if m.preflen = 3 then { m with pref3 := m.prefhash }
      else m

mutual
/-- wr_calc_term_meta, Reasoner/clmeta.c:600-655. -/
def calcT (h : Const → Int) (d : Nat) (m : TMeta) : Term → TMeta
  | .var _ => m.leaf h none
  | .const c => m.leaf h (some c)
  | .app f as =>
    let m := if m.depth < d + 1 then { m with depth := d + 1 } else m
    calcL h (d + 1) (m.leaf h (some f)) as
/-- the field loop, clmeta.c:655-657 -/
def calcL (h : Const → Int) (d : Nat) (m : TMeta) : List Term → TMeta
  | [] => m
  | a :: as => calcL h d (calcT h d m a) as
end

/-- `tmp` after the saturating or hashing step for the prefix hash,
Reasoner/clmeta.c:421-424 -/
def hashField (t : Int) : BitVec 64 :=
  if t > 255 then (BitVec.ofInt 64 (t.tmod 255)) &&& 255 else BitVec.ofInt 64 t

/-- saturation, Reasoner/clmeta.c:411-419 -/
def sat (lim n : Nat) : Nat := if n > lim then lim else n

/-- wr_litmeta_to_gint, Reasoner/clmeta.c:404-429 (payload). -/
def litWord (m : TMeta) : BitVec 64 :=
  ((((BitVec.ofNat 64 (if m.hasvars then 0 else 1) <<< 21
    ||| BitVec.ofNat 64 (sat 31 m.size) <<< 16)
    ||| BitVec.ofNat 64 (sat 31 m.depth) <<< 11)
    ||| BitVec.ofNat 64 (sat 7 m.preflen) <<< 8)
    ||| hashField m.prefhash)

/-- ATOM_META_NEG bit, Reasoner/clterm.h -/
def negBit : BitVec 64 := 1#64 <<< 22

/-- what is reset between two literals, Reasoner/clmeta.c:511-520 (`pref1hash`..`pref3hash`
keep their values) -/
def TMeta.next (m : TMeta) : TMeta := { pref1 := m.pref1, pref2 := m.pref2, pref3 := m.pref3 }

/-- summary word of one literal of a rule clause, Reasoner/clmeta.c:472-478; the struct is
zeroed before (clmeta.c:432) -/
def Lit.word (h : Const → Int) (l : Lit) : BitVec 64 :=
  let w := litWord (calcT h 0 {} l.atom)
  if l.neg then w ||| negBit else w

/-- `(meta & mask)` compared: `a > b` on `gint` -/
def wgt (a b : BitVec 64) : Bool := decide (a.toInt > b.toInt)

/-- wg_atom_meta_is_neg, Reasoner/clterm.h:182 -/
def isNegW (m : BitVec 64) : Bool := m &&& negBit != 0
/-- wg_atom_meta_is_ground, Reasoner/clterm.h:184 -/
def isGroundW (m : BitVec 64) : Bool := m &&& (1#64 <<< 21) != 0
/-- litmeta_negpolarities, Reasoner/clterm.h:183 -/
def negPol (a b : BitVec 64) : Bool := (a &&& negBit) != (b &&& negBit)

/-- wr_matchable_lit_meta, Reasoner/subsume.c:1693-1764. -/
def matchable (mx my : BitVec 64) : Bool :=
  if wgt (mx &&& 0x3FFF00#64) (my &&& 0x3FFF00#64) then false
  else if isGroundW mx then
    (if (mx &&& 0x3FFFFF#64) != (my &&& 0x3FFFFF#64) then false else true)
  else if wgt (mx &&& 0xFF00#64) (my &&& 0xFF00#64)
      || wgt (mx &&& 0x700#64) (my &&& 0x700#64) then false
  else if ((mx &&& 0x700#64) == (my &&& 0x700#64) && (mx &&& 0x700#64) >>> 8 != 7#64)
      && (mx &&& 0xFF#64) != (my &&& 0xFF#64) then false
  else true

/-- wr_sort_meta_bigger, Reasoner/clmeta.c:853-876. -/
def sortBigger (j i : BitVec 64) : Bool :=
  if isGroundW j then
    if isGroundW i then (if wgt j i then true else false) else true
  else
    if isGroundW i then false
    else if wgt (j &&& 0x3FFF00#64) (i &&& 0x3FFF00#64) then true else false

/-- a literal as stored in a rule clause: summary word and atom.  The sign is in the word. -/
structure SLit where
  word : BitVec 64
  atom : Term
deriving DecidableEq

/-- a literal as stored by wr_calc_clause_meta -/
def Lit.stored (h : Const → Int) (l : Lit) : SLit := ⟨l.word h, l.atom⟩

/-- wr_sort_2_meta_bigger, Reasoner/clmeta.c:879-934.  `lex` is wr_order_2_atoms_lex_order. -/
def sort2Bigger (lex : Term → Term → Nat) (j i : SLit) : Bool :=
  if isGroundW j.word then
    if isGroundW i.word then
      if wgt j.word i.word then true
      else if wgt i.word j.word then false
      else if isNegW j.word && !isNegW i.word then true
      else if !isNegW j.word && isNegW i.word then false
      else if lex j.atom i.atom = 1 then false
      else if lex j.atom i.atom = 2 then true
      else false
    else true
  else
    if isGroundW i.word then false
    else if wgt (j.word &&& 0x3FFF00#64) (i.word &&& 0x3FFF00#64) then true
    else if wgt (i.word &&& 0x3FFF00#64) (j.word &&& 0x3FFF00#64) then false
    else if isNegW j.word && !isNegW i.word then true
    else if isNegW i.word && !isNegW j.word then false
    else if lex j.atom i.atom = 1 then false
    else if lex j.atom i.atom = 2 then true
    else false

mutual
/-- wr_order_2_atoms_lex_order, Reasoner/clmeta.c:948-1013; 0 equal, 1 first smaller, 2 second
smaller.  `cs` is wr_order_atoms_const_lex_smaller.  The tests `x==y` on words are kept for
variables and constants; for two references to one record the recursion also gives 0. -/
def lexAtoms (cs : Const → Const → Bool) : Term → Term → Nat
  | .var v, .var w => if v = w then 0 else if v < w then 1 else 2
  | .var _, _ => 1
  | _, .var _ => 2
  | .const c, .const d => if c = d then 0 else if cs c d then 1 else 2
  | .const _, .app _ _ => 1
  | .app _ _, .const _ => 2
  | .app f as, .app g bs =>
    if as.length < bs.length then 1
    else if bs.length < as.length then 2
    else if f = g then lexAtomsL cs as bs
    else if cs f g then 1 else 2
/-- the field loop, clmeta.c:1003-1010 -/
def lexAtomsL (cs : Const → Const → Bool) : List Term → List Term → Nat
  | a :: as, b :: bs =>
    let t := lexAtoms cs a b
    if t = 0 then lexAtomsL cs as bs else t
  | _, _ => 0
end

/-- inner loop of wr_inssort_cl, Reasoner/clmeta.c:822-833: `x` is moved left past the
elements that are not bigger.  The argument is the sorted part read from right to left.  (When
`j` becomes -1 the code still reads slot -1, the clause header, but does not use it.) -/
def insRev (lex : Term → Term → Nat) (x : SLit) : List SLit → List SLit
  | [] => [x]
  | y :: ys => if !(sort2Bigger lex y x) then y :: insRev lex x ys else x :: y :: ys

/-- wr_sort_cl and wr_inssort_cl on the literals of a rule clause, Reasoner/clmeta.c:766-838. -/
def sortCl (lex : Term → Term → Nat) (cl : List SLit) : List SLit :=
  if cl.length < 2 then cl
  else (cl.foldl (fun acc x => insRev lex x acc) []).reverse

/-! ### Clause summaries -/

/-- limit_byte, Reasoner/clmeta.c:564-568. -/
def limitByte (n : Nat) : Nat := if n < 255 then n else if n > 255 then 255 else 0

/-- wr_signed_lithash_to_bitmask, Reasoner/clmeta.c:570-576 (GINT_HASHMASK_LENGTH is 30).
Only called with a positive hash below 2^31. -/
def signedBit (hash : Int) (neg : Bool) : Nat :=
  let pos := (hash.tmod 15).toNat + 1
  if neg then 1 <<< (pos + 15) else 1 <<< pos

/-- wr_lithash_to_bitmask, Reasoner/clmeta.c:578-583. -/
def hashBit (hash : Int) : Nat := 1 <<< ((hash.tmod 30).toNat + 1)

/-- the part of `cl_metacalc` packed into a metablock (Reasoner/clmeta.h:78-98) -/
structure CMeta where
  length : Nat := 0
  neglength : Nat := 0
  groundlength : Nat := 0
  hasvars : Bool := false
  depth : Nat := 0
  size : Nat := 0
  preflen : Nat := 0
  bits1 : Nat := 0
  bits2 : Nat := 0
  bits3 : Nat := 0
deriving DecidableEq

/-- adding one literal, Reasoner/clmeta.c:492-509 -/
def CMeta.add (c : CMeta) (neg : Bool) (m : TMeta) : CMeta :=
  { length := c.length
    neglength := if neg then c.neglength + 1 else c.neglength
    hasvars := if m.hasvars then true else c.hasvars
    groundlength := if m.hasvars then c.groundlength else c.groundlength + 1
    depth := if m.depth > c.depth then m.depth else c.depth
    preflen := if m.preflen > c.preflen then m.preflen else c.preflen
    size := c.size + m.size
    bits1 := if m.pref1 != 0 then c.bits1 ||| signedBit m.pref1 neg else c.bits1
    bits2 := if m.pref2 != 0 then c.bits2 ||| hashBit m.pref2 else c.bits2
    bits3 := if m.pref3 != 0 then c.bits3 ||| hashBit m.pref3 else c.bits3 }

/-- the literal loop of wr_calc_clause_meta, Reasoner/clmeta.c:468-521 -/
def clMetaLoop (h : Const → Int) : TMeta → CMeta → List Lit → CMeta
  | _, c, [] => c
  | m, c, l :: ls =>
    let m' := calcT h 0 m l.atom
    clMetaLoop h m'.next (c.add l.neg m') ls

/-- the packed metablock: LENGTHS, SIZES, PREF1BITS, PREF2BITS, PREF3BITS
(Reasoner/clmeta.h:42-56) -/
structure Block where
  lengths : Nat
  sizes : Nat
  bits1 : Nat
  bits2 : Nat
  bits3 : Nat
deriving DecidableEq

/-- packing, Reasoner/clmeta.c:524-537 -/
def CMeta.pack (c : CMeta) : Block :=
  { lengths := (((if c.hasvars then 0 else 1) <<< 24 ||| limitByte c.length <<< 16)
      ||| limitByte c.neglength <<< 8) ||| limitByte c.groundlength <<< 0
    sizes := (limitByte c.depth <<< 16 ||| limitByte c.size <<< 8)
      ||| limitByte c.preflen <<< 0
    bits1 := c.bits1, bits2 := c.bits2, bits3 := c.bits3 }

/-- wr_calc_clause_meta on a rule clause, Reasoner/clmeta.c:430-562 -/
def ruleBlock (h : Const → Int) (cl : List Lit) : Block :=
  (clMetaLoop h {} { length := cl.length } cl).pack

/-- wr_calc_clause_meta on a fact clause, Reasoner/clmeta.c:448-466: `litmeta` is never
computed and stays zero. -/
def factBlock : Block := ({ length := 1, groundlength := 1 } : CMeta).pack

/-- wr_clmetablock_can_subsume, Reasoner/subsume.c:365-468, with `instgen_strat` off (its
default, Reasoner/glb.c:241). -/
def canSubsume (g s : Block) : Bool :=
  if g.lengths > s.lengths then false
  else if g.lengths &&& 0xFF0000 > s.lengths &&& 0xFF0000 then false
  else if g.lengths &&& 0xFF00 > s.lengths &&& 0xFF00 then false
  else if g.lengths &&& 0xFF > s.lengths &&& 0xFF then false
  else if g.lengths &&& 0xFF0000 = s.lengths &&& 0xFF0000 ∧ s.lengths &&& 0xFF0000 < 255 ∧
      g.lengths &&& 0xFF00 ≠ s.lengths &&& 0xFF00 then false
  else if g.sizes > s.sizes then false
  else if g.sizes &&& 0xFF00 > s.sizes &&& 0xFF00 then false
  else if g.sizes &&& 0xFF > s.sizes &&& 0xFF then false
  else if g.bits1 &&& s.bits1 ≠ g.bits1 then false
  else if g.bits2 &&& s.bits2 ≠ g.bits2 then false
  else if g.bits3 &&& s.bits3 ≠ g.bits3 then false
  else true

end Gkc
