/-
Selection of the given clause: the priority queue and the four blocks of queues,
Reasoner/clstore.c:860-1457 and 1600-1790.

Clauses are numbers (addresses or offsets), 0 is NULL.  The outer `none` of results means an
access outside the allocated array.  Simplifications: memory allocation always succeeds, `int`
sizes do not overflow, the growable vector of the simple queue is a list.
wr_cl_ismarked_given and wr_cl_mark_given return at once (clstore.c:1405, 1439), so nothing is
ever marked.
-/
namespace Gkc.Queue

/-- the four numbers of one priority and the array they refer to, Reasoner/clstore.h:85-88 -/
structure Bucket where
  /-- PRIORQUEUE_ARR_LEN_POS -/
  len : Nat
  /-- PRIORQUEUE_NEXT_FREE_INDEX_POS -/
  free : Nat
  /-- PRIORQUEUE_NEXT_PICK_INDEX_POS -/
  pick : Nat
  /-- the array at PRIORQUEUE_ARR_OFFSET_POS; its length is the allocated number of cells -/
  arr : List Nat

/-- a priority queue, Reasoner/clstore.h:78-83; `bk p` is the block at (p+1)*4 -/
structure PQ where
  maxPrior : Nat
  maxUsed : Nat
  maxKeep : Nat
  bk : Nat → Bucket

/-- wr_make_priorqueue, Reasoner/clstore.c:1645-1668 -/
def makePQ (maxPrior : Nat) : PQ := ⟨maxPrior, 0, 0, fun _ => ⟨0, 0, 0, []⟩⟩

/-- malloc or realloc to `n` cells: kept cells and cells of unknown content -/
def grow (junk : Nat → Nat) (old : List Nat) (n : Nat) : List Nat :=
  old.take n ++ (List.range (n - old.length)).map junk

/-- writing a cell of an array -/
def store (a : List Nat) (i v : Nat) : Option (List Nat) :=
  if i < a.length then some (a.set i v) else none

/-- changing one block of a queue -/
def PQ.upd (q : PQ) (p : Nat) (b : Bucket) : PQ := { q with bk := fun i => if i = p then b else q.bk i }

/-- wr_push_priorqueue, Reasoner/clstore.c:1676-1728 (PRIORQUEUE_INITIAL_BUCKETELS is 8) -/
def push (junk : Nat → Nat) (q : PQ) (cl : Nat) (prior : Int) : Option PQ :=
  if prior < 0 then some q
  else if q.maxKeep ≠ 0 ∧ prior > q.maxKeep then some q
  else
    let p := if prior > q.maxPrior then q.maxPrior else prior.toNat
    let b := q.bk p
    if b.len = 0 then
      (store (grow junk [] 8) 0 cl).map fun a =>
        let q' := q.upd p ⟨8, 1, 0, a⟩
        if p > q.maxUsed then { q' with maxUsed := p } else q'
    else if b.free ≥ b.len then
      (store (grow junk b.arr (b.len * 2)) b.free cl).map fun a =>
        q.upd p ⟨b.len * 2, b.free + 1, b.pick, a⟩
    else
      (store b.arr b.free cl).map fun a => q.upd p { b with free := b.free + 1, arr := a }

/-- the inner loop of wr_pick_priorqueue over one block, Reasoner/clstore.c:1748-1775 -/
def pickBucket (b : Bucket) : Option (Option Nat × Bucket) :=
  if b.pick < b.free ∧ b.pick < b.len ∧ b.len ≠ 0 then
    match b.arr[b.pick]? with
    | none => none
    | some c =>
      if c ≠ 0 then some (some c, { b with pick := b.pick + 1 })
      else pickBucket { b with pick := b.pick + 1 }
  else some (none, b)
termination_by b.free - b.pick

/-- the loop over `n` priorities from `p` on, Reasoner/clstore.c:1746-1777 -/
def pickLoop (q : PQ) (p : Nat) : Nat → Option (Option Nat × PQ)
  | 0 => some (none, q)
  | n + 1 => match pickBucket (q.bk p) with
    | none => none
    | some (some c, b) => some (some c, q.upd p b)
    | some (none, b) => pickLoop (q.upd p b) (p + 1) n

/-- wr_pick_priorqueue, Reasoner/clstore.c:1736-1780 -/
def pick (q : PQ) : Option (Option Nat × PQ) := pickLoop q 0 (q.maxUsed + 1)

/-- one block of queues, Reasoner/clstore.h:60-66.  `given` is CLPICK_QUEUE_GIVEN_POS - 2, the
number of elements of the simple queue already taken. -/
structure Block where
  simple : List Nat
  given : Nat
  pq : PQ
  pratio : Int
  pcount : Int
  tratio : Int
  tcount : Int

/-- the queues and g->next_pick_given_queue_block_nr -/
structure Queues where
  blk : Nat → Block
  next : Nat

/-- NROF_CLPICK_QUEUES -/
def nBlocks : Nat := 4

/-- wr_create_clpick_queues, Reasoner/clstore.c:879-958: `ratio` is g->pick_given_queue_ratio,
`qs` tells if g->cl_pick_queue_strategy is nonzero; MAX_CLPRIOR is 10000 -/
def create (ratio : Int) (qs : Bool) : Queues where
  blk i := {
    simple := [], given := 0, pq := makePQ 10000, pratio := ratio, pcount := 0,
    tratio := if i = 0 then (if qs then 6 else 1) else if i = 1 then (if qs then 4 else 1) else 1,
    tcount := 0 }
  next := 0

/-- changing one block -/
def Queues.upd (s : Queues) (i : Nat) (b : Block) : Queues :=
  { s with blk := fun j => if j = i then b else s.blk j }

/-- wr_push_cl_clpick_queues, Reasoner/clstore.c:1007-1101, after the block `i` was selected -/
def pushBlock (junk : Nat → Nat) (b : Block) (cl : Nat) (weight : Int) : Option Block :=
  if weight ≥ 0 then
    (push junk b.pq cl weight).map fun pq => { b with simple := b.simple ++ [cl], pq := pq }
  else some { b with simple := b.simple ++ [cl] }

/-- the same on all queues -/
def pushQ (junk : Nat → Nat) (s : Queues) (i : Nat) (cl : Nat) (weight : Int) : Option Queues :=
  (pushBlock junk (s.blk i) cl weight).map (s.upd i)

/-- the loop over the simple queue, Reasoner/clstore.c:1350-1395 -/
def pickSimple (b : Block) : Option Nat × Block :=
  if h : b.given < b.simple.length then
    let c := b.simple[b.given]
    let b' := { b with given := b.given + 1, tcount := b.tcount + 1 }
    if c ≠ 0 then (some c, b') else pickSimple b'
  else (none, b)
termination_by b.simple.length - b.given

/-- wr_pick_from_clpick_queues_aux, Reasoner/clstore.c:1254-1397 -/
def pickBlock (b : Block) : Option (Option Nat × Block) :=
  if b.pcount < b.pratio then
    match pick b.pq with
    | none => none
    | some (some c, pq) => some (some c, { b with pq := pq, pcount := b.pcount + 1, tcount := b.tcount + 1 })
    | some (none, pq) => some (pickSimple { b with pq := pq })
  else some (pickSimple { b with pcount := 0 })

/-- outcome of a pick -/
inductive PickR
  /-- the loop budget of the model ran out -/
  | fuel
  /-- access outside an array -/
  | ub
  | ok (c : Option Nat) (s : Queues)

/-- the loop of wr_pick_from_clpick_queues, Reasoner/clstore.c:1205-1250 (the blocks start at
1+10*nr, the vector has 40 elements) -/
def pickLoopQ (s : Queues) (first : Nat) : Nat → Bool → Nat → PickR
  | 0, _, _ => .fuel
  | n + 1, loopflag, nr =>
    if loopflag && nr == first then .ok none s
    else match pickBlock (s.blk nr) with
      | none => .ub
      | some (some c, b) =>
        if b.tcount ≥ b.tratio then
          .ok (some c) { (s.upd nr { b with tcount := 0 }) with next := s.next + 1 }
        else .ok (some c) (s.upd nr { b with tcount := b.tcount + 1 })
      | some (none, b) =>
        let wrap := decide (nr + 1 ≥ nBlocks) || decide (1 + nr * 10 ≥ 40)
        let nr' := if wrap then 0 else nr + 1
        pickLoopQ { (s.upd nr b) with next := nr' } first n (loopflag || wrap) nr'

/-- wr_pick_from_clpick_queues, Reasoner/clstore.c:1181-1251 -/
def pickQ (s : Queues) : PickR :=
  let s' := if s.next ≥ nBlocks then { s with next := 0 } else s
  pickLoopQ s' s'.next (2 * nBlocks) false s'.next

end Gkc.Queue
