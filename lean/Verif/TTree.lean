import Verif.Compare
/-
The T-tree index (Db/dbindex.c:145-1425).

Simplified: the nodes are a tree, so a node is reached by its path and not by an offset (parent and
child pointers always agree); the two chains of nodes (succ_offset, pred_offset, offset_min_node,
offset_max_node) are one list of node numbers; array_of_values is a list; the heights are numbers
without bound (unsigned char in the code).  Where the code takes the predecessor of a node with a left
child from the chain (Db/dbindex.c:546, 847) the model walks to the rightmost node of the left
subtree, as the code does without chains (Db/dbindex.c:544, 845); that this is the same node is
proved (C53_chain).
-/
namespace Gkc.TTree
open Gkc.Compare (Word)

/-- the offset of a record -/
abbrev Row := Nat

/-- struct wg_tnode, Db/dbindex.h:87-101, without pointers -/
structure Node where
  id : Nat
  /-- current_min -/
  mn : Word
  /-- current_max -/
  mx : Word
  /-- array_of_values, number_of_elements -/
  vals : List Row
  /-- left_subtree_height -/
  lh : Nat
  /-- right_subtree_height -/
  rh : Nat
  deriving DecidableEq

/-- left_child_offset, right_child_offset -/
inductive Tree where
  | nil
  | node (n : Node) (l r : Tree)
  deriving DecidableEq

/-- the indexed column, the comparison (C52) and WG_ILLEGAL -/
structure Env where
  /-- wg_get_field(db,rec,column) -/
  key : Row → Word
  /-- WG_COMPARE -/
  cmp : Word → Word → Ordering
  /-- Db/dbdata.h:76 -/
  ill : Word

/-- WG_TNODE_ARRAY_SIZE, Db/dballoc.h:270 -/
def cap : Nat := 8

/-- left: false, right: true -/
abbrev Path := List Bool

/-- no node: offset 0 -/
def Tree.isNil : Tree → Bool
  | .nil => true
  | .node _ _ _ => false

/-- the subtree at the end of a path -/
def Tree.get : Tree → Path → Option Tree
  | t, [] => some t
  | .nil, _ :: _ => none
  | .node _ l r, d :: p => if d then r.get p else l.get p

/-- the subtree at the end of a path replaced, heights as they are -/
def Tree.put : Tree → Path → Tree → Tree
  | _, [], s => s
  | .nil, _ :: _, _ => .nil
  | .node n l r, d :: p, s => if d then .node n l (r.put p s) else .node n (l.put p s) r

/-- nodes in order -/
def Tree.nodes : Tree → List Node
  | .nil => []
  | .node n l r => l.nodes ++ n :: r.nodes

/-- the index: the tree and the chain of node numbers -/
structure Idx where
  tree : Tree
  chain : List Nat
  deriving DecidableEq

/-! ### Search -/

/-- REALLY_BOUNDING_NODE, DEAD_END_LEFT_NOT_BOUNDING, DEAD_END_RIGHT_NOT_BOUNDING; Db/dbindex.h -/
inductive Bound where
  | really
  | deadLeft
  | deadRight
  deriving DecidableEq

/-- the result of a search in a subtree: the node with this path, or the node above that was not
examined fully (rb_node, lb_node) -/
inductive Found where
  | at_ (p : Path) (b : Bound)
  | back
  deriving DecidableEq

/-- one step down -/
def Found.step (d : Bool) : Found → Found
  | .at_ p b => .at_ (d :: p) b
  | .back => .back

/-- wg_search_ttree_rightmost, Db/dbindex.c:1181-1228; `rb`: the current_max of rb_node -/
def rightmost (E : Env) (key : Word) : Tree → Option Word → Option Found
  | .nil, _ => none
  | .node n l r, rb =>
    if E.cmp key n.mn = .lt then
      if l.isNil then
        match rb with
        | some m => if E.cmp key m ≠ .gt then some .back else some (.at_ [] .deadLeft)
        | none => some (.at_ [] .deadLeft)
      else (rightmost E key l rb).map (.step false)
    else if r.isNil then
      if E.cmp key n.mx ≠ .gt then some (.at_ [] .really) else some (.at_ [] .deadRight)
    else match rightmost E key r (some n.mx) with
      | some .back => some (.at_ [] .really)
      | x => x.map (.step true)

/-- wg_search_ttree_leftmost, Db/dbindex.c:1258-1294; `lb`: the current_min of lb_node -/
def leftmost (E : Env) (key : Word) : Tree → Option Word → Option Found
  | .nil, _ => none
  | .node n l r, lb =>
    if E.cmp key n.mx = .gt then
      if r.isNil then
        match lb with
        | some m => if E.cmp key m ≠ .lt then some .back else some (.at_ [] .deadRight)
        | none => some (.at_ [] .deadRight)
      else (leftmost E key r lb).map (.step true)
    else if l.isNil then
      if E.cmp key n.mn ≠ .lt then some (.at_ [] .really) else some (.at_ [] .deadLeft)
    else match leftmost E key l (some n.mn) with
      | some .back => some (.at_ [] .really)
      | x => x.map (.step false)

/-- wg_search_tnode_first, Db/dbindex.c:1326-1342; `none` for -1 -/
def tnodeFirst (E : Env) (key : Word) (vals : List Row) : Option Nat :=
  vals.findIdx? fun v => E.cmp (E.key v) key ≠ .lt

/-- wg_search_tnode_last, Db/dbindex.c:1349-1364; `none` for -1 -/
def tnodeLast (E : Env) (key : Word) (vals : List Row) : Option Nat :=
  (vals.reverse.findIdx? fun v => E.cmp (E.key v) key ≠ .gt).map fun i => vals.length - 1 - i

/-! ### Balance -/

/-- db_rotate_ttree with LL_CASE, Db/dbindex.c:217-242 -/
def rotLL (a : Node) (b : Node) (bl br ar : Tree) : Tree :=
  let a' := { a with lh := b.rh }
  let b' := { b with rh := max a'.lh a'.rh + 1 }
  .node b' bl (.node a' br ar)

/-- db_rotate_ttree with RR_CASE, Db/dbindex.c:244-267 -/
def rotRR (a : Node) (al : Tree) (c : Node) (cl cr : Tree) : Tree :=
  let a' := { a with rh := c.lh }
  let c' := { c with lh := max a'.rh a'.lh + 1 }
  .node c' (.node a' al cl) cr

/-- the "special" LR rotation, Db/dbindex.c:296-319: values move from b to the leaf e -/
def specialLR (E : Env) (b e : Node) (el er : Tree) : Node × Node :=
  if e.vals.length = 1 ∧ er.isNil ∧ el.isNil ∧ b.vals.length = cap then
    let v := b.vals.tail ++ e.vals
    ({ b with vals := b.vals.take 1, mx := b.mn }, { e with vals := v, mn := (v.head?.map E.key).getD e.mn })
  else (b, e)

/-- db_rotate_ttree with LR_CASE, Db/dbindex.c:269-330 -/
def rotLR (E : Env) (a : Node) (b : Node) (bl : Tree) (e : Node) (el er ar : Tree) : Tree :=
  let a' := { a with lh := e.rh }
  let b1 := { b with rh := e.lh }
  let (b2, e1) := specialLR E b1 e el er
  let e2 := { e1 with lh := max b2.rh b2.lh + 1, rh := max a'.rh a'.lh + 1 }
  .node e2 (.node b2 bl el) (.node a' er ar)

/-- the "special" RL rotation, Db/dbindex.c:362-381 -/
def specialRL (E : Env) (b e : Node) (el er : Tree) : Node × Node :=
  if e.vals.length = 1 ∧ er.isNil ∧ el.isNil ∧ b.vals.length = cap then
    let v := e.vals ++ b.vals.dropLast
    ({ b with vals := b.vals.drop (cap - 1), mn := b.mx }, { e with vals := v, mx := (v.getLast?.map E.key).getD e.mx })
  else (b, e)

/-- db_rotate_ttree with RL_CASE, Db/dbindex.c:332-392 -/
def rotRL (E : Env) (a : Node) (al : Tree) (b : Node) (e : Node) (el er br : Tree) : Tree :=
  let a' := { a with rh := e.lh }
  let b1 := { b with lh := e.rh }
  let (b2, e1) := specialRL E b1 e el er
  let e2 := { e1 with rh := max b2.rh b2.lh + 1, lh := max a'.rh a'.lh + 1 }
  .node e2 (.node a' al el) (.node b2 er br)

/-- db_which_branch_causes_overweight and db_rotate_ttree, Db/dbindex.c:196-420; `none`: a child
that is not there is read -/
def rotate (E : Env) : Tree → Option Tree
  | .nil => none
  | .node a al ar =>
    if a.lh > a.rh then
      match al with
      | .nil => none
      | .node b bl br =>
        if b.lh ≥ b.rh then some (rotLL a b bl br ar)
        else match br with
          | .nil => none
          | .node e el er => some (rotLR E a b bl e el er ar)
    else
      match ar with
      | .nil => none
      | .node b bl br =>
        if b.lh > b.rh then match bl with
          | .nil => none
          | .node e el er => some (rotRL E a al b e el er br)
        else some (rotRR a al b bl br)

/-- max(left_subtree_height,right_subtree_height)+1 of a node, 0 without a node -/
def Tree.hgt : Tree → Nat
  | .nil => 0
  | .node n _ _ => max n.lh n.rh + 1

/-- `balance > 1 || balance < -1` -/
def Node.uneven (n : Node) : Bool := decide (n.lh > n.rh + 1) || decide (n.rh > n.lh + 1)

/-- what the loop over the parents does next: nothing, the height in the parent is set from the
rotated subtree (Db/dbindex.c:401-417), or the loop goes on -/
inductive Grow where
  | stop
  | rotated
  | grew
  deriving DecidableEq

/-- one round of the loop over the parents, Db/dbindex.c:718-748, at the parent `n` whose child on
side `d` was changed -/
def growUp (E : Env) (n : Node) (d : Bool) (l r : Tree) : Grow → Option (Tree × Grow)
  | .stop => some (.node n l r, .stop)
  | .rotated =>
    let n' := if d then { n with rh := r.hgt } else { n with lh := l.hgt }
    some (.node n' l r, .stop)
  | .grew =>
    let n' := if d then { n with rh := n.rh + 1 } else { n with lh := n.lh + 1 }
    if n'.lh = n'.rh then some (.node n' l r, .stop)
    else if n'.uneven then (rotate E (.node n' l r)).map fun t => (t, .rotated)
    else some (.node n' l r, .grew)

/-- a new leaf at the end of the path, and the loop over its parents, Db/dbindex.c:714-750 -/
def grow (E : Env) (leaf : Node) : Path → Tree → Option (Tree × Grow)
  | [], .nil => some (.node leaf .nil .nil, .grew)
  | d :: p, .node n l r =>
    if d then (grow E leaf p r).bind fun (r', g) => growUp E n d l r' g
    else (grow E leaf p l).bind fun (l', g) => growUp E n d l' r g
  | _, _ => none

/-! ### Insertion -/

/-- before a node in the chain, Db/dbindex.c:580-593, 672-687 -/
def insBefore (x new : Nat) : List Nat → List Nat
  | [] => []
  | y :: ys => if y = x then new :: y :: ys else y :: insBefore x new ys

/-- behind a node in the chain, Db/dbindex.c:600-617, 690-705 -/
def insAfter (x new : Nat) : List Nat → List Nat
  | [] => []
  | y :: ys => if y = x then y :: new :: ys else y :: insAfter x new ys

/-- a new node, Db/dbindex.c:563-572, 659-668 -/
def leafNode (id : Nat) (v : Word) (row : Row) : Node := ⟨id, v, v, [row], 0, 0⟩

/-- the path to the rightmost node of a tree, wg_ttree_find_glb_node, Db/dbindex.c:1108-1114 -/
def Tree.lastPath : Tree → Path
  | .nil => []
  | .node _ _ r => if r.isNil then [] else true :: r.lastPath

/-- into the sorted array, in front of the first value that is not less, Db/dbindex.c:464-485 -/
def insLow (E : Env) (v : Word) (row : Row) : List Row → List Row
  | [] => [row]
  | x :: xs => if E.cmp (E.key x) v = .lt then x :: insLow E v row xs else row :: x :: xs

/-- is slot 0 taken? `i==0`, Db/dbindex.c:494 -/
def atFront (E : Env) (v : Word) : List Row → Bool
  | [] => true
  | x :: _ => E.cmp (E.key x) v ≠ .lt

/-- a node with room gets a row, Db/dbindex.c:458-497 -/
def addRoom (E : Env) (v : Word) (row : Row) (n : Node) : Node :=
  { n with vals := insLow E v row n.vals, mn := if atFront E v n.vals then v else n.mn }

/-- the values of the slots 1.. that are greater (moving right) and the others (moving left),
Db/dbindex.c:511-523 -/
def highPart (E : Env) (v : Word) (vals : List Row) : List Row × List Row :=
  let r := vals.tail.reverse
  ((r.dropWhile fun x => E.cmp (E.key x) v = .gt).reverse, (r.takeWhile fun x => E.cmp (E.key x) v = .gt).reverse)

/-- a full node gets a row and loses slot 0, Db/dbindex.c:498-556 -/
def addFull (E : Env) (v : Word) (row : Row) (n : Node) : Node :=
  let lo := (highPart E v n.vals).1
  let hi := (highPart E v n.vals).2
  let vals := lo ++ row :: hi
  if lo.isEmpty then { n with vals := vals, mn := v }
  else { n with vals := vals, mn := (vals.head?.map E.key).getD n.mn, mx := if hi.isEmpty then v else n.mx }

/-- a new leaf with the given row; `fresh`: wg_alloc_fixlen_object, `none` if there is no memory.
`t` is the tree as it is now, `ch` the chain with the new number in it. -/
def addLeaf (E : Env) (ix : Idx) (fresh : Option Nat) (t : Tree) (p : Path) (v : Word) (row : Row)
    (ch : Nat → List Nat) : Option (Idx × Bool) :=
  match fresh with
  | none => some (⟨t, ix.chain⟩, false)
  | some id => (grow E (leafNode id v row) p t).map fun (t', _) => (⟨t', ch id⟩, true)

/-- ttree_add_row, Db/dbindex.c:428-752: the new index and whether 0 is returned; `none`: undefined -/
def insert (E : Env) (fresh : Option Nat) (ix : Idx) (row : Row) : Option (Idx × Bool) :=
  let v := E.key row
  match rightmost E v ix.tree none with
  | some (.at_ p b) => match ix.tree.get p with
    | some (.node n l r) => match b with
      | .really =>
        if n.vals.length < cap then some (⟨ix.tree.put p (.node (addRoom E v row n) l r), ix.chain⟩, true)
        else
          let t1 := ix.tree.put p (.node (addFull E v row n) l r)
          let minrow := n.vals.headD 0
          if l.isNil then addLeaf E ix fresh t1 (p ++ [false]) n.mn minrow (fun i => insBefore n.id i ix.chain)
          else
            let gp := p ++ false :: l.lastPath
            match t1.get gp with
            | some (.node g gl gr) =>
              if g.vals.length < cap then
                some (⟨t1.put gp (.node { g with vals := g.vals ++ [minrow], mx := n.mn } gl gr), ix.chain⟩, true)
              else addLeaf E ix fresh t1 (gp ++ [true]) n.mn minrow (fun i => insAfter g.id i ix.chain)
            | _ => none
      | .deadLeft =>
        if n.vals.length < cap then
          some (⟨ix.tree.put p (.node { n with vals := row :: n.vals, mn := v, mx := if n.vals.isEmpty then v else n.mx } l r),
            ix.chain⟩, true)
        else addLeaf E ix fresh ix.tree (p ++ [false]) v row (fun i => insBefore n.id i ix.chain)
      | .deadRight =>
        if n.vals.length < cap then
          some (⟨ix.tree.put p (.node { n with vals := n.vals ++ [row], mx := v, mn := if n.vals.isEmpty then v else n.mn } l r),
            ix.chain⟩, true)
        else addLeaf E ix fresh ix.tree (p ++ [true]) v row (fun i => insAfter n.id i ix.chain)
    | _ => none
  | _ => none

/-- a new index, Db/dbindex.c:1376-1401 -/
def empty (E : Env) (id : Nat) : Idx := ⟨.node ⟨id, E.ill, E.ill, [], 0, 0⟩ .nil .nil, [id]⟩

/-- rows one after another, Db/dbindex.c:1403-1417; `ids`: what the allocator gives for each row, if asked -/
def insertAll (E : Env) : Idx → List (Row × Option Nat) → Option Idx
  | ix, [] => some ix
  | ix, (row, f) :: xs => (insert E f ix row).bind fun (ix', _) => insertAll E ix' xs

/-! ### Removal -/

/-- the path to a node, given by its number: offsettoptr -/
def Tree.pathOf : Tree → Nat → Option Path
  | .nil, _ => none
  | .node n l r, i =>
    if n.id = i then some []
    else match l.pathOf i with
      | some p => some (false :: p)
      | none => (r.pathOf i).map (true :: ·)

/-- the nodes from the given one along the chain -/
def Idx.from_ (ix : Idx) (id : Nat) : List Node :=
  (ix.chain.dropWhile (· ≠ id)).filterMap fun i => ix.tree.nodes.find? (·.id = i)

/-- the loop along the chain: the node that has the row, Db/dbindex.c:801-814; after the first node
the loop ends at a node that begins with a greater value -/
def scan (E : Env) (row : Row) (key : Word) : List Node → Option Node
  | [] => none
  | n :: ns =>
    if row ∈ n.vals then some n
    else match ns with
      | [] => none
      | m :: _ => if E.cmp m.mn key = .gt then none else scan E row key ns

/-- the row is taken out of the array, Db/dbindex.c:819-838 -/
def dropRow (E : Env) (row : Row) (n : Node) : Node :=
  let i := n.vals.idxOf row
  let vals := n.vals.eraseIdx i
  if i = vals.length ∧ vals.length ≠ 0 then { n with vals := vals, mx := (vals.getLast?.map E.key).getD n.mx }
  else if i = 0 ∧ vals.length ≠ 0 then { n with vals := vals, mn := (vals.head?.map E.key).getD n.mn }
  else { n with vals := vals }

/-- an internal node takes the greatest value of its predecessor, Db/dbindex.c:851-862 -/
def borrow (n g : Node) : Node :=
  { n with
    vals := g.vals.getLast?.toList ++ n.vals
    mn := g.mx
    mx := if n.vals.isEmpty then g.mx else n.mx }

/-- the predecessor loses it, Db/dbindex.c:863-869 -/
def lend (E : Env) (g : Node) : Node :=
  let vals := g.vals.dropLast
  { g with vals := vals, mx := (vals.getLast?.map E.key).getD g.mx }

/-- one round of the loop over the parents, Db/dbindex.c:1003-1027.  After a rotation the loop goes on
at the new root of the subtree; were this uneven as well, the model gives `none`. -/
def settle (E : Env) : Tree → Option Tree
  | .nil => none
  | .node n l r =>
    if n.uneven then match rotate E (.node n l r) with
      | some (.node m ml mr) => if m.uneven then none else some (.node m ml mr)
      | _ => none
    else some (.node n l r)

/-- the subtree at the end of the path is replaced by a lower one, and the loop over the parents,
Db/dbindex.c:881-891, 988-995, 1001-1028 -/
def shrink (E : Env) (s : Tree) : Path → Tree → Option Tree
  | [], _ => some s
  | d :: p, .node n l r =>
    if d then (shrink E s p r).bind fun r' => settle E (.node { n with rh := r'.hgt } l r')
    else (shrink E s p l).bind fun l' => settle E (.node { n with lh := l'.hgt } l' r)
  | _ :: _, .nil => none

/-- a half-leaf takes over all values of its left child, Db/dbindex.c:947-959 -/
def mergeLeft (n c : Node) : Node :=
  { n with vals := c.vals ++ n.vals, lh := 0, mn := c.mn, mx := if n.vals.isEmpty then c.mx else n.mx }

/-- ... of its right child, Db/dbindex.c:960-968 -/
def mergeRight (n c : Node) : Node :=
  { n with vals := n.vals ++ c.vals, rh := 0, mx := c.mx, mn := if n.vals.isEmpty then c.mn else n.mn }

/-- what follows when the node at the end of the path has lost a value, Db/dbindex.c:875-1028: an
empty leaf goes, a half-leaf is merged with its child if they fit; the number is what the function
returns -/
def afterLoss (E : Env) (t : Tree) (chain : List Nat) (p : Path) : Option (Idx × Int) :=
  match t.get p with
  | some (.node m .nil .nil) =>
    if m.vals.isEmpty then
      if p.isEmpty then some (⟨.node { m with mn := E.ill, mx := E.ill } .nil .nil, [m.id]⟩, 0)
      else (shrink E .nil p t).map fun t' => (⟨t', chain.erase m.id⟩, 0)
    else some (⟨t, chain⟩, 0)
  | some (.node m (.node c cl cr) .nil) =>
    if ¬ (c.lh = 0 ∧ c.rh = 0) then some (⟨t, chain⟩, -4)
    else if m.vals.length + c.vals.length ≤ cap then
      (shrink E (.node (mergeLeft m c) .nil .nil) p t).map fun t' => (⟨t', chain.erase c.id⟩, 0)
    else some (⟨t, chain⟩, 0)
  | some (.node m .nil (.node c cl cr)) =>
    if ¬ (c.lh = 0 ∧ c.rh = 0) then some (⟨t, chain⟩, -4)
    else if m.vals.length + c.vals.length ≤ cap then
      (shrink E (.node (mergeRight m c) .nil .nil) p t).map fun t' => (⟨t', chain.erase c.id⟩, 0)
    else some (⟨t, chain⟩, 0)
  | some (.node _ _ _) => some (⟨t, chain⟩, 0)
  | _ => none

/-- Db/dbindex.c:819-1028, when the row was found in the node at the end of the path -/
def removeAt (E : Env) (ix : Idx) (row : Row) (p : Path) : Option (Idx × Int) :=
  match ix.tree.get p with
  | some (.node n l r) =>
    let n1 := dropRow E row n
    if n1.vals.length < 5 ∧ ¬ l.isNil ∧ ¬ r.isNil then
      match l.get l.lastPath with
      | some (.node g gl gr) =>
        let l' := l.put l.lastPath (.node (lend E g) gl gr)
        afterLoss E (ix.tree.put p (.node (borrow n1 g) l' r)) ix.chain (p ++ false :: l.lastPath)
      | _ => none
    else afterLoss E (ix.tree.put p (.node n1 l r)) ix.chain p
  | _ => none

/-- ttree_remove_row, Db/dbindex.c:763-1030: the index and what is returned -/
def remove (E : Env) (ix : Idx) (row : Row) : Option (Idx × Int) :=
  let key := E.key row
  match leftmost E key ix.tree none with
  | some (.at_ p b) =>
    if b ≠ .really then some (ix, -2)
    else match ix.tree.get p with
      | some (.node n _ _) => match scan E row key (ix.from_ n.id) with
        | none => some (ix, -3)
        | some m => match ix.tree.pathOf m.id with
          | some q => removeAt E ix row q
          | none => none
      | _ => none
  | _ => none

end Gkc.TTree
