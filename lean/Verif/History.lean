/-
History records and the proof listing: Reasoner/history.c.  Every clause of the prover carries a
history record; when a contradiction is found, the records are followed back, the clauses met are
numbered and one line is written for each.

Simplifications: clauses are numbered by the order in which they were made and `S c` is the history
record of clause `c`; memory allocation in the pool succeeds; `store_history` is on (Reasoner/glb.c:264)
and SHOW_HISTORY_ORDER off (Reasoner/history.h:61); the texts of clauses and terms are left out here, a
line shows which clause it is about.
-/
namespace Gkc.Hist

/-- a word of a history record -/
inductive W
  | null
  /-- encoded record: a clause -/
  | cls (c : Nat)
  /-- encoded integer -/
  | int (v : BitVec 64)
  | str (s : String)
  /-- any other word -/
  | other (n : Nat)
deriving DecidableEq, Repr

/-- a record and the words which follow it in memory -/
structure HRec where
  fields : List W
  past : Nat → W

/-- wr_get_history_record_field, Reasoner/history.c:2438-2440: no check against the length -/
def HRec.get (h : HRec) (i : Nat) : W := (h.fields[i]?).getD (h.past (i - h.fields.length))

/-! ### Records -/

/-- the limit 255 on positions, Reasoner/history.c:611-690 -/
def clamp (p : Nat) : Nat := if p > 255 then 255 else p

/-- wr_encode_history_*, Reasoner/history.c:607-700: tag, positions, and the flag of paramodulation -/
def head (tag p1 p2 : Nat) (left : Bool) : W :=
  .int (BitVec.ofNat 64 (((tag <<< 20) ||| (clamp p1 <<< 8) ||| clamp p2) ||| (if left then 1 <<< 16 else 0)))

/-- wr_get_history_tag, Reasoner/history.c:703-705: bits 20 to 23; cutting to an `int` keeps them -/
def tagOf (d : BitVec 64) : Nat := (d.toNat / 2 ^ 20) % 16

/-- wr_get_history_extra, Reasoner/history.c:707-709 -/
def extraOf (d : BitVec 64) : Nat := (d.toNat / 2 ^ 16) % 16

/-- wr_get_history_pos1, Reasoner/history.c:711-713: the mask is WR_HISTORY_TAG_BITS, 15 -/
def pos1Of (d : BitVec 64) : Nat := (d.toNat / 2 ^ 8) % 16

/-- wr_get_history_pos2, Reasoner/history.c:715-717: the mask is WR_HISTORY_TAG_BITS, 15 -/
def pos2Of (d : BitVec 64) : Nat := d.toNat % 16

/-- how the cutting unit clauses are kept, Reasoner/subsume.c:613-618 and at five more places (simp.c
with `cuts+2`): `n` cuts so far, `vec` the clauses kept; the vector has NROF_CUT_CLVEC_ELS = 100
elements (Reasoner/glb.h:81) -/
def pushCut (s : Nat × List Nat) (c : Nat) : Nat × List Nat :=
  let cuts := s.1 + 1
  (cuts, if 100 > cuts + 1 then s.2 ++ [c] else s.2)

/-- all cuts of one derivation -/
def cutVec (cs : List Nat) : List Nat := (cs.foldl pushCut (0, [])).2

/-- wr_build_resolve_history, Reasoner/history.c:122-156 (tag 1); wr_build_instgen_history 159-193
(tag 8); wr_build_propagate_history 355-375 (tag 6, no cuts) -/
def mkTwo (tag : Nat) (pre : List W) (c1 p1 c2 p2 : Nat) (cuts : List Nat) : List W :=
  pre ++ head tag p1 p2 false :: .cls c1 :: .cls c2 :: cuts.map .cls

/-- wr_build_factorial_history, Reasoner/history.c:377-409: with `pos2 < 0` the tag is that of
reflexivity -/
def mkFactor (pre : List W) (c p1 : Nat) (p2 : Option Nat) (cuts : List Nat) : List W :=
  pre ++ (match p2 with | some p2 => head 2 p1 p2 false | none => head 4 p1 0 false) :: .cls c :: cuts.map .cls

/-- wr_build_propinst_history, Reasoner/history.c:412-441 -/
def mkPropinst (pre : List W) (c : Nat) (term : W) (cuts : List Nat) : List W :=
  pre ++ head 7 0 0 false :: .cls c :: term :: cuts.map .cls

/-- wr_build_extprop_history, Reasoner/history.c:444-464 -/
def mkExtprop (pre : List W) : List W := pre ++ [head 9 0 0 false]

/-- wr_build_para_history, Reasoner/history.c:466-500 -/
def mkPara (pre : List W) (c1 p1 c2 p2 path : Nat) (left : Bool) (cuts : List Nat) : List W :=
  pre ++ head 3 p1 p2 left :: .int (BitVec.ofNat 64 path) :: .cls c1 :: .cls c2 :: cuts.map .cls

/-- wr_build_simplify_history, Reasoner/history.c:502-534 -/
def mkSimplify (pre : List W) (c : Nat) (cuts rews : List Nat) : List W :=
  pre ++ head 5 0 0 false :: .cls c :: (cuts.map .cls ++ rews.map .cls)

/-- wr_build_arithinst_history, Reasoner/history.c:193-231: parent, number of substitutions, the
substitutions, number of cuts, the cuts -/
def mkArithinst (pre : List W) (c : Nat) (subst : List (Nat × W)) (cuts : List Nat) : List W :=
  pre ++ head 10 0 0 false :: .cls c :: .int (BitVec.ofNat 64 subst.length) ::
    (subst.flatMap (fun s => [.int (BitVec.ofNat 64 s.1), s.2]) ++
      .int (BitVec.ofNat 64 cuts.length) :: cuts.map .cls)

/-- the parents and positions which wr_process_paramodulate_result hands over, Reasoner/derive.c:940-946,
1059-1065: `eq` is the clause with the equality, `into` the clause rewritten, `pe`, `pi` the positions of
the literals.  When the given clause is the one rewritten into (`from` is false), the positions are handed
over in the other order than the clauses. -/
def paraRecord (pre : List W) (fromflag : Bool) (eq pe into pi path : Nat) (left : Bool) (cuts : List Nat) : List W :=
  if fromflag then mkPara pre eq pe into pi path left cuts
  else mkPara pre eq pi into pe path left cuts

/-! ### Numbering -/

/-- the word read as a clause; anything else is dereferenced as an address: `none` -/
def clsOf : W → Option Nat
  | .cls c => some c
  | _ => none

/-- a list of words read as clauses -/
def clsAll : List W → Option (List Nat)
  | [] => some []
  | w :: ws => match clsOf w with
    | none => none
    | some c => match clsAll ws with
      | none => none
      | some cs => some (c :: cs)

/-- the parents wr_flatten_history goes through, Reasoner/history.c:774-848; `none` is the use of a
word that is not a clause as an address.  Input records have no field 5: what is read is the word behind
the record. -/
def parents (h : HRec) : Option (List Nat) :=
  match h.get 5 with
  | .int d =>
    if tagOf d = 10 then
      match clsOf (h.get 6), h.get 7 with
      | some c, .int n =>
        if n.toNat < 1 ∨ n.toNat > 2 then some [c]
        else match h.get (8 + 2 * n.toNat) with
          | .int k =>
            match clsAll (((List.range k.toNat).filter (fun i => 8 + 2 * n.toNat + 1 + i < h.fields.length)).map
                (fun i => h.get (8 + 2 * n.toNat + 1 + i))) with
            | some cs => some (c :: cs)
            | none => none
          | _ => none
      | _, _ => none
    else if 1 ≤ tagOf d ∧ tagOf d ≤ 8 then
      let start := if tagOf d = 3 then 7 else 6
      clsAll (((List.range h.fields.length).filter
        (fun i => start ≤ i && !(tagOf d == 7 && i == 7))).map h.get)
    else some []
  | _ => some []

/-- `clnr` and `assoc`, newest entry first -/
structure FS where
  clnr : Nat
  assoc : List (Nat × Nat)
deriving DecidableEq, Repr

/-- wg_get_assoc, Db/dbmpool.c:514-526, with the number taken by wg_nth (440-450): 0 when missing -/
def numOf (assoc : List (Nat × Nat)) (c : Nat) : Nat := (assoc.lookup c).getD 0

/-- wr_flatten_history_addcl, Reasoner/history.c:852-873 -/
def addcl (c : Nat) (s : FS) : FS :=
  match s.assoc.lookup c with
  | some _ => s
  | none => ⟨s.clnr + 1, (c, s.clnr) :: s.assoc⟩

/-- outcome: `deep` when the recursion is not finished at the given depth -/
inductive Out
  | ub
  | deep
  | ok (s : FS)

/-- the loop over the parents, Reasoner/history.c:823-846: the result of the inner call is not looked
at -/
def visitAll (inner : Nat → FS → Out) : List Nat → FS → Out
  | [], s => .ok s
  | c :: cs, s =>
    match s.assoc.lookup c with
    | some _ => visitAll inner cs s
    | none => match inner c s with
      | .ok s => visitAll inner cs (addcl c s)
      | o => o

/-- wr_flatten_history, Reasoner/history.c:774-849, with recursion at most `n` deep -/
def flat (S : Nat → HRec) : Nat → HRec → FS → Out
  | 0, _, _ => .deep
  | n + 1, h, s => match parents h with
    | none => .ub
    | some ps => visitAll (fun c s => flat S n (S c) s) ps s

/-! ### Lines -/

/-- name of the rule in a line -/
inductive Rule
  | input | mp | instgen | fmp | merge | refl | para | simp | inst | extprop | arithinst | unknown
deriving DecidableEq, Repr

/-- one item of the list of premises -/
inductive Item
  /-- number of a line, positions shown, side of the equality -/
  | ref (num : Nat) (pos : List Nat) (side : Option Bool)
  /-- a term -/
  | term (w : W)
  /-- a substitution -/
  | subst (var : Nat) (w : W)
deriving DecidableEq, Repr

/-- one line -/
structure Line where
  num : Nat
  rule : Rule
  items : List Item
  cl : Option Nat
deriving DecidableEq, Repr

/-- number shown for a parent word -/
def wordNum (assoc : List (Nat × Nat)) (w : W) : Nat :=
  match clsOf w with
  | some c => numOf assoc c
  | none => 0

/-- integer in a field -/
def intOf : W → Nat
  | .int v => v.toNat
  | _ => 0

/-- a position: nothing is shown for 0 -/
def shownPos (p : Nat) : List Nat := if p = 0 then [] else [p]

/-- the item for field `i`, Reasoner/history.c:2071-2355 -/
def item (h : HRec) (assoc : List (Nat × Nat)) (d : BitVec 64) (i : Nat) : Item :=
  let num := wordNum assoc (h.get i)
  let tag := tagOf d
  if tag = 1 ∨ tag = 6 ∨ tag = 8 then
    if i = 6 then .ref num (shownPos (pos1Of d)) none
    else if i = 7 then .ref num (shownPos (pos2Of d)) none
    else .ref num [] none
  else if tag = 2 then
    if i = 6 then .ref num [pos1Of d, pos2Of d] none else .ref num [] none
  else if tag = 4 then
    if i = 6 then .ref num [pos1Of d] none else .ref num [] none
  else if tag = 7 then
    if i = 7 then .term (h.get i) else .ref num [] none
  else if tag = 3 then
    if i = 7 then
      if pos1Of d ≠ 0 then .ref num [pos1Of d] (some (extraOf d ≠ 0))
      else if extraOf d ≠ 0 then .ref num [] none
      else .ref num [0] (some false)
    else if i = 8 then .ref num [pos2Of d, intOf (h.get 6) % 2 ^ 16] none
    else .ref num [] none
  else .ref num [] none

/-- the rule shown, Reasoner/history.c:2014-2336 -/
def ruleOf (tag : Nat) : Rule :=
  if tag = 1 then .mp else if tag = 2 then .merge else if tag = 3 then .para else if tag = 4 then .refl
  else if tag = 5 then .simp else if tag = 6 then .fmp else if tag = 7 then .inst
  else if tag = 8 then .instgen else if tag = 9 then .extprop else if tag = 10 then .arithinst
  else .unknown

/-- wr_strprint_one_history, Reasoner/history.c:1802-2372, in the plain and the JSON format -/
def printOne (assoc : List (Nat × Nat)) (h : HRec) (cl : Option Nat) (num : Nat) : Line :=
  if h.fields.length = 5 then ⟨num, .input, [], cl⟩
  else match h.get 5 with
    | .int d =>
      if tagOf d = 10 then
        let n := intOf (h.get 7)
        let k := intOf (h.get (8 + 2 * n))
        ⟨num, .arithinst,
          .ref (wordNum assoc (h.get 6)) [] none ::
          ((List.range n).map (fun i => .subst (intOf (h.get (8 + 2 * i))) (h.get (8 + 2 * i + 1))) ++
           (List.range k).map (fun i => .ref (wordNum assoc (h.get (8 + 2 * n + 1 + i))) [] none)), cl⟩
      else if tagOf d = 9 then ⟨num, .extprop, [], none⟩
      else
        let start := if tagOf d = 3 then 7 else 6
        ⟨num, ruleOf (tagOf d),
          ((List.range h.fields.length).filter (fun i => start ≤ i)).map (item h assoc d), cl⟩
    | _ => ⟨num, .unknown, [], none⟩

/-- the line in the TPTP format: the numbers between the last brackets of the inference,
Reasoner/history.c:1948-2014 -/
def printTptp (assoc : List (Nat × Nat)) (h : HRec) : List Nat :=
  if h.fields.length = 5 then []
  else match h.get 5 with
    | .int d =>
      if tagOf d = 10 then
        let n := intOf (h.get 7)
        let k := intOf (h.get (8 + 2 * n))
        wordNum assoc (h.get 6) ::
          (List.range k).map (fun i => wordNum assoc (h.get (8 + 2 * n + 1 + i)))
      else
        let start := if tagOf d = 3 then 7 else 6
        ((List.range h.fields.length).filter (fun i => start ≤ i)).map (fun i => wordNum assoc (h.get i))
    | _ => []

/-- the proof part of wr_show_result, Reasoner/history.c:1444-1492, and wr_strprint_flat_history
1558-1612: the numbered clauses in order, then the last step, which is for the empty clause or the answer
clause `ans`.  `none`: undefined, or not finished at depth `n`. -/
def listing (S : Nat → HRec) (n : Nat) (fin : HRec) (ans : Option Nat) : Option (List Line) :=
  match flat S n fin ⟨1, []⟩ with
  | .ok s =>
    let assoc := s.assoc.reverse
    some (assoc.map (fun e => printOne assoc (S e.1) (some e.1) e.2) ++ [printOne assoc fin ans s.clnr])
  | _ => none

/-- the premises in the TPTP format, line by line -/
def listingTptp (S : Nat → HRec) (n : Nat) (fin : HRec) : Option (List (Nat × List Nat)) :=
  match flat S n fin ⟨1, []⟩ with
  | .ok s =>
    let assoc := s.assoc.reverse
    some (assoc.map (fun e => (e.2, printTptp assoc (S e.1))) ++ [(s.clnr, printTptp assoc fin)])
  | _ => none

end Gkc.Hist
