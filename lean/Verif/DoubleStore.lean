import Verif.Derive
/-
Where the clauses referred to from the indexes live.

Clauses are built in term buffers: arrays with a position of the next free element.  The indexes
(unit tables, two-literal tables, queues, active lists) hold pointers into these buffers.  Kept
derived clauses are in `queue_termbuf`, active clauses in `active_termbuf`, the given clause in
`given_termbuf`, and the clause under construction in `derived_termbuf`.

Simplified: an element of a buffer holds a whole literal (in the program the literal's signs and atom
records are also in the buffer); a buffer never gets full.
-/
namespace Gkc.Store
open Gkc

/-- the term buffers, Reasoner/glb.c:851-868 -/
inductive Region
  | queue
  | active
  | given
  | derived
deriving DecidableEq, Repr

/-- a term buffer: next free element and contents -/
structure Buf where
  next : Nat := 2
  cell : Nat → Option Lit := fun _ => none

/-- `ls` written from position `o` on -/
def put (cell : Nat → Option Lit) (o : Nat) (ls : List Lit) : Nat → Option Lit :=
  fun i => if o ≤ i ∧ i < o + ls.length then ls[i - o]? else cell i

/-- building a clause at the end of a buffer (wr_create_raw_record in Reasoner/build.c) -/
def Buf.build (b : Buf) (ls : List Lit) : Buf := ⟨b.next + ls.length, put b.cell b.next ls⟩

/-- an entry of an index: a pointer, with (ghost) the literals it was entered for -/
structure Entry where
  reg : Region
  off : Nat
  orig : List Lit

/-- the buffers and the entries of all indexes -/
structure Mem where
  buf : Region → Buf := fun _ => {}
  entries : List Entry := []

/-- replacing one buffer -/
def Mem.set (m : Mem) (r : Region) (b : Buf) : Mem := { m with buf := fun r' => if r' = r then b else m.buf r' }

/-- a clause built in a region and entered in an index -/
def Mem.keep (m : Mem) (r : Region) (ls : List Lit) : Mem :=
  { (m.set r ((m.buf r).build ls)) with entries := ⟨r, (m.buf r).next, ls⟩ :: m.entries }

/-- what the loop does with the buffers -/
inductive Op
  /-- a kept result: built in `queue_termbuf` and entered, Reasoner/derive.c:254-258, 369-400; the same
  for simplified clauses, Reasoner/simp.c -/
  | derive (ls : List Lit)
  /-- a result that is too heavy: built, then the next free position restored, derive.c:359-364 -/
  | drop (ls : List Lit)
  /-- construction of a result in `derived_termbuf`, which is emptied first, derive.c:134; also marks
  `given_termbuf` as empty without writing to it, derive.c:2159 -/
  | scratch (ls : List Lit)
  /-- the next given clause is simplified; `given_termbuf` is emptied, rgenloop.c:294, 775 -/
  | pick
  /-- the given clause is built in the emptied `given_termbuf`, rgenloop.c:370, 592; if simplification
  changed its length to two it is entered in the two-literal index, rgenloop.c:454-456; its copy is
  built in `active_termbuf` and entered, rgenloop.c:443, 657-700 -/
  | given (origlen : Nat) (ls : List Lit)

/-- emptying a buffer: `buf[1]=2` -/
def Mem.reset (m : Mem) (r : Region) : Mem := m.set r { m.buf r with next := 2 }

/-- effect of one operation -/
def Mem.run (m : Mem) : Op → Mem
  | .derive ls => m.keep .queue ls
  | .drop ls => m.set .queue { (m.buf .queue).build ls with next := (m.buf .queue).next }
  | .scratch ls =>
    let m := (m.reset .derived).reset .given
    m.set .derived ((m.buf .derived).build ls)
  | .pick => m.reset .given
  | .given origlen ls =>
    let m := m.reset .given
    let m := if ls.length ≠ origlen ∧ ls.length = 2 then m.keep .given ls
             else m.set .given ((m.buf .given).build ls)
    m.keep .active ls

/-- what is found at an entry, reading `n` literals: wr_atom_doublecut_aux reads two without looking at
the length, Reasoner/subsume.c:1033-1036 -/
def Mem.read (m : Mem) (e : Entry) (n : Nat) : List (Option Lit) := (List.range n).map fun i => (m.buf e.reg).cell (e.off + i)

end Gkc.Store
