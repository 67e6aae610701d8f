/-
The lock for read and write transactions (Db/dblock.c with LOCK_PROTO 3, a queue, and USE_LOCK_TIMEOUT, on Linux):
wg_start_write, wg_end_write, wg_start_read, wg_end_read.

Any number of processes run interleaved, one step at a time; memory is sequentially consistent.  Between lock_queue and
unlock_queue each store is a step of its own; what is read there is read in the step that obtains the queue lock (no
other process writes before it is given back).  Queue nodes are numbered 1, 2, ... in place of their offsets, 0 is
the invalid offset.
-/
namespace Gkc.Lock

/-- LOCKQ_READ and LOCKQ_WRITE, Db/dblock.c:81-82 -/
def code (w : Bool) : Nat := if w then 4 else 2

/-- The fields of lock_queue_node (Db/dblock.h:56-65) for every node, and `tail`, `freelist` of syn_var_area
(Db/dballoc.h:343-349) -/
structure Mem where
  cell : Nat → Nat
  cls : Nat → Nat
  wt : Nat → Nat
  nx : Nat → Nat
  pv : Nat → Nat
  tail : Nat
  free : Nat

def upd (f : Nat → Nat) (a v : Nat) : Nat → Nat := fun x => if x = a then v else f x

/-- a store into one of the fields -/
inductive Wr where
  | cell (n v : Nat)
  | cls (n v : Nat)
  | wt (n v : Nat)
  | nx (n v : Nat)
  | pv (n v : Nat)
  | tail (v : Nat)
  | free (v : Nat)

def Wr.app : Wr → Mem → Mem
  | .cell n v, m => { m with cell := upd m.cell n v }
  | .cls n v, m => { m with cls := upd m.cls n v }
  | .wt n v, m => { m with wt := upd m.wt n v }
  | .nx n v, m => { m with nx := upd m.nx n v }
  | .pv n v, m => { m with pv := upd m.pv n v }
  | .tail v, m => { m with tail := v }
  | .free v, m => { m with free := v }

def apps : List Wr → Mem → Mem
  | [], m => m
  | x :: l, m => apps l (x.app m)

/-- what a process wants the queue lock for; `w` for the functions of the write lock -/
inductive Op where
  /-- db_tfqueue_wlock, Db/dblock.c:1008-1027, db_tfqueue_rlock, 1122-1145 -/
  | enq (w : Bool)
  /-- db_tfqueue_wulock, Db/dblock.c:1070-1080, db_tfqueue_rulock, 1206-1222 -/
  | rel (w : Bool) (n : Nat)
  /-- after the time is over, Db/dblock.c:1034-1037, 1153-1156 -/
  | quit (w : Bool) (n : Nat)
  /-- a reader that waited, Db/dblock.c:1166-1174 -/
  | chain (n : Nat)

/-- what comes after unlock_queue -/
inductive After where
  /-- 0 is returned -/
  | zero
  /-- the field `waiting` of the own node is looked at, Db/dblock.c:1029, 1147 -/
  | look (w : Bool) (n : Nat)
  /-- futex_wake for node `a` unless it is 0, then the function returns; with `some n` it is db_tfqueue_rlock,
  which returns `n` -/
  | fin (a : Nat) (h : Option Nat)

/-- alloc_lock, Db/dblock.c:1383-1394, is part of `enq`; free_lock, 1396-1401 -/
def freeLock (m : Mem) (n : Nat) : List Wr := [.cell n m.free, .free n]

/-- the stores between lock_queue and unlock_queue, in order -/
def prog : Op → Mem → List Wr × After
  | .enq w, m =>
    let t := m.free
    if t = 0 then ([], .zero)
    else
      let p := m.tail
      ([.free (m.cell t), .tail t, .cls t (code w), .pv t p, .nx t 0] ++
        (if p ≠ 0 then [.nx p t, .wt t (if w = false ∧ m.cls p = code false ∧ m.wt p = 0 then 0 else 1)] else [.wt t 0]),
       .look w t)
  | .rel true n, m =>
    ((if m.nx n ≠ 0 then [.wt (m.nx n) 0, .pv (m.nx n) 0] else if m.tail = n then [.tail 0] else []) ++ freeLock m n,
     .fin (m.nx n) none)
  | .rel false n, m =>
    let give := m.nx n ≠ 0 ∧ m.wt (m.nx n) ≠ 0 ∧ (m.pv n = 0 ∨ m.cls (m.nx n) = code false)
    ((if m.pv n ≠ 0 then [.nx (m.pv n) (m.nx n)] else []) ++
     (if m.nx n ≠ 0 then .pv (m.nx n) (m.pv n) :: (if give then [.wt (m.nx n) 0] else [])
      else if m.tail = n then [.tail (m.pv n)] else []) ++ freeLock m n,
     .fin (if give then m.nx n else 0) none)
  -- DEQUEUE_LOCK, Db/dblock.c:157-167
  | .quit _ n, m =>
    ((if m.pv n ≠ 0 then [.nx (m.pv n) (m.nx n)] else []) ++
     (if m.nx n ≠ 0 then [.pv (m.nx n) (m.pv n)] else if m.tail = n then [.tail (m.pv n)] else []) ++ freeLock m n,
     .zero)
  | .chain n, m =>
    if m.nx n ≠ 0 ∧ m.cls (m.nx n) = code false ∧ m.wt (m.nx n) ≠ 0 then ([.wt (m.nx n) 0], .fin (m.nx n) (some n))
    else ([], .fin 0 (some n))

/-- where a process is -/
inductive PC where
  /-- outside of the four functions, without a lock -/
  | idle
  /-- in lock_queue -/
  | spin (op : Op)
  /-- has the queue lock, the stores still to be done -/
  | sect (ws : List Wr) (k : After)
  /-- before looking at `waiting` -/
  | look (w : Bool) (n : Nat)
  /-- about to enter the system call FUTEX_WAIT -/
  | call (w : Bool) (n : Nat)
  /-- sleeping in FUTEX_WAIT -/
  | blocked (w : Bool) (n : Nat)
  /-- about to call FUTEX_WAKE -/
  | waking (a : Nat) (h : Option Nat)
  /-- outside of the four functions, with the lock that wg_start_write (`w`) or wg_start_read returned -/
  | held (w : Bool) (n : Nat)

/-- `q` is the queue lock -/
structure St where
  mem : Mem
  q : Nat
  pcs : List PC

def St.pc (s : St) (i : Nat) (c : PC) : St := { s with pcs := s.pcs.set i c }

def ret : Option Nat → PC
  | none => .idle
  | some n => .held false n

def after : After → PC
  | .zero => .idle
  | .look w n => .look w n
  | .fin a h => if a ≠ 0 then .waking a h else ret h

/-- futex_trywait returned something else than ETIMEDOUT, Db/dblock.c:1033-1049, 1152-1174 -/
def woken (w : Bool) (n : Nat) : PC := if w then .held true n else .spin (.chain n)

/-- one step of process `i` -/
inductive Act where
  /-- wg_start_write, wg_start_read are called -/
  | start (i : Nat) (w : Bool)
  /-- wg_end_write, wg_end_read are called with the lock the process has -/
  | finish (i : Nat)
  /-- compare_and_swap in lock_queue succeeds, Db/dblock.c:939, 953 -/
  | cas (i : Nat)
  /-- the next store -/
  | write (i : Nat)
  /-- unlock_queue, Db/dblock.c:970-976 -/
  | unlock (i : Nat)
  | look (i : Nat)
  /-- FUTEX_WAIT looks whether `waiting` is 1 and puts the process to sleep, in one step -/
  | futex (i : Nat)
  /-- FUTEX_WAIT returns ETIMEDOUT -/
  | timeout (i : Nat)
  /-- FUTEX_WAIT returns EINTR -/
  | intr (i : Nat)
  /-- FUTEX_WAKE wakes process `r`, or none if none sleeps on this address -/
  | wake (i : Nat) (r : Option Nat)

/-- does the process sleep on the field `waiting` of node `a` -/
def PC.sleeps (a : Nat) : PC → Bool
  | .blocked _ n => n == a
  | _ => false

def step : Act → St → Option St
  | .start i w, s => match s.pcs[i]? with
    | some .idle => some (s.pc i (.spin (.enq w)))
    | _ => none
  | .finish i, s => match s.pcs[i]? with
    | some (.held w n) => some (s.pc i (.spin (.rel w n)))
    | _ => none
  | .cas i, s => match s.pcs[i]? with
    | some (.spin op) =>
      if s.q = 0 then some ({ s with q := 1 }.pc i (.sect (prog op s.mem).1 (prog op s.mem).2)) else none
    | _ => none
  | .write i, s => match s.pcs[i]? with
    | some (.sect (x :: ws) k) => some ({ s with mem := x.app s.mem }.pc i (.sect ws k))
    | _ => none
  | .unlock i, s => match s.pcs[i]? with
    | some (.sect [] k) => some ({ s with q := 0 }.pc i (after k))
    | _ => none
  | .look i, s => match s.pcs[i]? with
    | some (.look w n) => some (s.pc i (if s.mem.wt n ≠ 0 then .call w n else .held w n))
    | _ => none
  | .futex i, s => match s.pcs[i]? with
    | some (.call w n) => some (s.pc i (if s.mem.wt n = 1 then .blocked w n else woken w n))
    | _ => none
  | .timeout i, s => match s.pcs[i]? with
    | some (.blocked w n) => some (s.pc i (.spin (.quit w n)))
    | _ => none
  | .intr i, s => match s.pcs[i]? with
    | some (.blocked w n) => some (s.pc i (woken w n))
    | _ => none
  | .wake i r, s => match s.pcs[i]? with
    | some (.waking a h) => match r with
      | none => if s.pcs.all fun c => !c.sleeps a then some (s.pc i (ret h)) else none
      | some j => match s.pcs[j]? with
        | some (.blocked w n) => if n = a then some ((s.pc i (ret h)).pc j (woken w n)) else none
        | _ => none
    | _ => none

/-- wg_init_locks, Db/dblock.c:1242-1278, with `max` nodes, and `procs` processes outside of the functions; the fields
of the nodes are what the memory happens to contain -/
def init (max procs : Nat) (m : Mem) : St :=
  { mem := { m with cell := fun n => if n < max then n + 1 else 0, free := 1, tail := 0 }, q := 0,
    pcs := List.replicate procs .idle }

end Gkc.Lock
