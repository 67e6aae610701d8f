import Verif.InputStats
/-
How often each symbol occurs, in positive and in negative literals: both numbers are kept in one integer of the symbol
(Reasoner/analyze.c:417-434, analyze.h:41-43, Db/dbdata.c:2407-2453). The choice of
literals by their hardness uses them (Reasoner/strat.c:842), and orderings if KB_WEIGHTS_ORDER or OCC_LEX_ORDER is defined (strat.c:1047, 1841).

Simplified: constants of a term are symbols (URIs); strings and numbers are not counted and can be left out. wg_encode_int keeps all numbers that arise.
-/
namespace Gkc.Oc
open Gkc.Is

/-- URI_COUNT_POSCOUNT_SHIFT. Reasoner/analyze.h:41 -/
def shift : Nat := 16

/-- URI_COUNT_NEGCOUNT_MASK. Reasoner/analyze.h:43 -/
def mask : Nat := 0x1FFF

/-- the number of positive occurrences as it is read. Reasoner/analyze.c:423, strat.c:843 -/
def pos (u : Nat) : Nat := u >>> shift

/-- the number of negative ones. Reasoner/analyze.c:424, strat.c:845 -/
def neg (u : Nat) : Nat := u &&& mask

/-- one occurrence more. Reasoner/analyze.c:422-433 -/
def bump (polarity : Bool) (u : Nat) : Nat :=
  let p := if polarity then (if pos u + 1 > 1 <<< shift then 1 <<< shift else pos u + 1) else pos u
  let n := if polarity then neg u else (if neg u + 1 > mask then mask else neg u + 1)
  (p <<< shift) ||| n

mutual
/-- wr_analyze_term, as far as it counts: nothing is counted if there is a shared database. Reasoner/analyze.c:410-434, 492-495 -/
def count (ext polarity : Bool) : Term → (Nat → Nat) → Nat → Nat
  | .const k, c => if ext then c else fun m => if m = k then bump polarity (c k) else c m
  | .var _, c => c
  | .app ts, c => countAll ext polarity ts c
def countAll (ext polarity : Bool) : List Term → (Nat → Nat) → Nat → Nat
  | [], c => c
  | t :: ts, c => countAll ext polarity ts (count ext polarity t c)
end

/-- the literals of a stored clause; the third place of wr_analyze_term is 1 for a fact. Reasoner/analyze.c:224, 228-247 -/
def clause (ext : Bool) (c : Nat → Nat) : Stored → Nat → Nat
  | .fact _ t => count ext true t c
  | .rule ls => ls.foldl (fun c l => count ext (!l.1) l.2.2 c) c

/-- all clauses; at the beginning the count of a symbol is 0. Reasoner/analyze.c:88-106 -/
def all (ext : Bool) (cs : List Stored) : Nat → Nat := cs.foldl (clause ext) fun _ => 0

end Gkc.Oc
