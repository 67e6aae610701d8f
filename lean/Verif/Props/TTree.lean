import Verif.TTreeRemove
import Verif.CompareLemmas
/-
C53: a T-tree index has the rows that were added and not removed, in the order of their keys, in a
balanced tree.
-/
namespace Gkc.Props.TT
open Gkc.TTree
open Gkc.Compare (Word)
open Std

/-! ### What an index should be -/

/-- how deep a tree is -/
def depth : Tree → Nat
  | .nil => 0
  | .node _ l r => max (depth l) (depth r) + 1

/-- at no node one side is deeper than the other by more than one -/
def Balanced : Tree → Prop
  | .nil => True
  | .node _ l r => depth l ≤ depth r + 1 ∧ depth r ≤ depth l + 1 ∧ Balanced l ∧ Balanced r

/-- all nodes from left to right -/
def inOrder : Tree → List Node
  | .nil => []
  | .node n l r => inOrder l ++ [n] ++ inOrder r

/-- the rows along the chain of nodes -/
def contents (ix : Idx) : List Row := (inOrder ix.tree).flatMap fun n => n.vals

/-- no row has a greater key than a row that comes later -/
def Ordered (E : Env) (rows : List Row) : Prop :=
  ∀ (i j : Nat) (a b : Row), i < j → rows[i]? = some a → rows[j]? = some b → E.cmp (E.key a) (E.key b) ≠ .gt

/-- the smallest and the greatest key of a node are those of its first and its last row, and there
are one to eight rows -/
def NodeRight (E : Env) (n : Node) : Prop :=
  1 ≤ n.vals.length ∧ n.vals.length ≤ 8 ∧
  (∀ a, n.vals[0]? = some a → n.mn = E.key a) ∧ (∀ a, n.vals[n.vals.length - 1]? = some a → n.mx = E.key a)

/-- what can be done with an index whose memory does not run out: `rows` have been added and not
removed.  A node number given by the allocator is not in use. -/
inductive Reach (E : Env) : Idx → List Row → Prop
  | create (id : Nat) : Reach E (empty E id) []
  | add {ix ix' : Idx} {rows : List Row} {ok : Bool} (row : Row) (id : Nat) : Reach E ix rows → id ∉ ix.chain →
      insert E (some id) ix row = some (ix', ok) → Reach E ix' (row :: rows)
  | del {ix ix' : Idx} {rows : List Row} {c : Int} (row : Row) : Reach E ix rows → remove E ix row = some (ix', c) →
      Reach E ix' (rows.erase row)

/-! ### Proof -/

theorem inOrder_eq : ∀ t : Tree, inOrder t = t.nodes
  | .nil => rfl
  | .node n l r => by simp [inOrder, Tree.nodes, inOrder_eq l, inOrder_eq r]

theorem contents_eq (ix : Idx) : contents ix = ix.tree.rows := by
  unfold contents Tree.rows rowsOf
  rw [inOrder_eq]

theorem depth_eq : ∀ t : Tree, Bal t → depth t = t.hgt ∧ Balanced t
  | .nil, _ => ⟨rfl, trivial⟩
  | .node n l r, ⟨b1, b2, b3, b4, b5, b6⟩ => by
    obtain ⟨h1, h2⟩ := depth_eq l b5
    obtain ⟨h3, h4⟩ := depth_eq r b6
    refine ⟨?_, ?_, ?_, h2, h4⟩
    · simp only [depth, hgt_node, h1, h3, b1, b2]
    · omega
    · omega

theorem ordered_of_srt {E : Env} {rs : List Row} (h : Srt E rs) : Ordered E rs := by
  intro i j a b hij ha hb
  obtain ⟨hi, rfl⟩ := List.getElem?_eq_some_iff.1 ha
  obtain ⟨hj, rfl⟩ := List.getElem?_eq_some_iff.1 hb
  exact List.pairwise_iff_getElem.1 h i j hi hj hij

theorem nodeRight_of_ok {E : Env} {n : Node} (h : NodeOk E n) : NodeRight E n := by
  have hne : n.vals.length ≠ 0 := fun hc => h.ne (List.length_eq_zero_iff.1 hc)
  refine ⟨by omega, h.len, ?_, ?_⟩
  · intro a ha
    have := h.mn
    rw [List.head?_eq_getElem?, ha] at this
    simpa using this.symm
  · intro a ha
    have := h.mx
    rw [List.getLast?_eq_getElem?, ha] at this
    simpa using this.symm

theorem added_perm {row : Row} {rs rs' : List Row} (h : Added row rs rs') : rs'.Perm (row :: rs) := by
  obtain ⟨a, b, rfl, rfl⟩ := h
  exact List.perm_middle

theorem reach_inv {E : Env} (h : E.Ok) {ix : Idx} {rows : List Row} (hr : Reach E ix rows) :
    (Good E ix ∨ Blank E ix) ∧ ix.tree.rows.Perm rows := by
  haveI := h.trans
  induction hr with
  | create id =>
    exact ⟨Or.inr ⟨id, rfl⟩, by simp [empty, Tree.rows, Tree.nodes, rowsOf]⟩
  | @add ix _ _ _ row id _ hid he ih =>
    obtain ⟨ih1, ih2⟩ := ih
    have hi : Inserted E (some id) ix row := by
      rcases ih1 with hg | hb
      · exact insert_good (some id) hg row (fun i e => by cases e; exact hid)
      · exact insert_blank h (some id) hb row
    obtain ⟨ix', ok, e1, e2, e3, e4, _⟩ := hi
    rw [e1] at he
    cases he
    exact ⟨Or.inl e3, (added_perm (e4 (e2 (by simp)))).trans (ih2.cons row)⟩
  | @del ix ix' rows c row _ he ih =>
    obtain ⟨ih1, ih2⟩ := ih
    rcases ih1 with hg | hb
    · by_cases hm : row ∈ ix.tree.rows
      · obtain ⟨ix2, e1, e2, e3⟩ := (remove_good hg row).1 hm
        rw [e1] at he
        cases he
        refine ⟨e2, ?_⟩
        have h1 := (added_perm e3).symm.trans ih2
        have h2 := h1.erase row
        simpa using h2
      · obtain ⟨c', e1, _⟩ := (remove_good hg row).2 hm
        rw [e1] at he
        cases he
        refine ⟨Or.inl hg, ?_⟩
        rw [List.erase_of_not_mem (fun hc => hm (ih2.mem_iff.2 hc))]
        exact ih2
    · rw [remove_blank h hb row] at he
      cases he
      refine ⟨Or.inr hb, ?_⟩
      obtain ⟨id, rfl⟩ := hb
      have : rows = [] := by
        have := ih2
        simp only [empty, Tree.rows, Tree.nodes, rowsOf] at this
        simpa using this
      subst this
      simpa using ih2

/-! ### Theorems -/

/-- The index has exactly the rows that were added and not removed, in the order of their keys; its
tree is balanced, with the right heights and bounds in every node, and its chain goes through the
nodes from left to right. -/
theorem C53_index_right_partial {E : Env} (h : E.Ok) {ix : Idx} {rows : List Row} (hr : Reach E ix rows) :
    (contents ix).Perm rows ∧ Ordered E (contents ix) ∧ Balanced ix.tree ∧
    ix.chain = (inOrder ix.tree).map Node.id ∧ ix.chain.Nodup ∧
    (∀ p n l r, ix.tree.get p = some (.node n l r) → n.lh = depth l ∧ n.rh = depth r) ∧
    (rows ≠ [] → ∀ n ∈ inOrder ix.tree, NodeRight E n) := by
  obtain ⟨h1, h2⟩ := reach_inv h hr
  rw [contents_eq]
  rcases h1 with hg | ⟨id, rfl⟩
  · refine ⟨h2, ordered_of_srt hg.sok.srt, (depth_eq _ hg.bal).2, ?_, hg.nodup, ?_, ?_⟩
    · rw [inOrder_eq]; exact hg.chain
    · intro p n l r hp
      obtain ⟨b1, b2, _, _, b5, b6⟩ := bal_get hg.bal hp
      exact ⟨by rw [(depth_eq l b5).1]; exact b1, by rw [(depth_eq r b6).1]; exact b2⟩
    · intro _ n hn
      rw [inOrder_eq] at hn
      exact nodeRight_of_ok (hg.sok.ok n hn)
  · have hrows : rows = [] := by
      simp only [empty, Tree.rows, Tree.nodes, rowsOf] at h2
      simpa using h2
    refine ⟨h2, ?_, ?_, rfl, by simp [empty], ?_, fun hne => absurd hrows hne⟩
    · simp [empty, Tree.rows, Tree.nodes, rowsOf, Ordered]
    · simp [empty, Balanced, depth]
    · intro p n l r hp
      cases p with
      | nil =>
        simp only [empty, Tree.get, Option.some.injEq, Tree.node.injEq] at hp
        obtain ⟨rfl, rfl, rfl⟩ := hp
        exact ⟨rfl, rfl⟩
      | cons d p => cases d <;> cases p <;> simp [empty, Tree.get] at hp

/-- Nothing in these operations is undefined: a row can always be added, a row that is there can be
removed, and the attempt to remove a row that is not there is refused and changes nothing. -/
theorem C53_index_total_partial {E : Env} (h : E.Ok) {ix : Idx} {rows : List Row} (hr : Reach E ix rows) (row : Row) :
    (∀ id, id ∉ ix.chain → ∃ ix', insert E (some id) ix row = some (ix', true)) ∧
    (row ∈ rows → ∃ ix', remove E ix row = some (ix', 0)) ∧
    (row ∉ rows → ∃ c, remove E ix row = some (ix, c) ∧ c < 0) := by
  haveI := h.trans
  obtain ⟨h1, h2⟩ := reach_inv h hr
  refine ⟨fun id hid => ?_, fun hm => ?_, fun hm => ?_⟩
  · have hi : Inserted E (some id) ix row := by
      rcases h1 with hg | hb
      · exact insert_good (some id) hg row (fun i e => by cases e; exact hid)
      · exact insert_blank h (some id) hb row
    obtain ⟨ix', ok, e1, e2, _⟩ := hi
    exact ⟨ix', by rw [e1, e2 (by simp)]⟩
  · have hm' := h2.mem_iff.2 hm
    rcases h1 with hg | ⟨id, rfl⟩
    · obtain ⟨ix', e, _⟩ := (remove_good hg row).1 hm'
      exact ⟨ix', e⟩
    · simp [empty, Tree.rows, Tree.nodes, rowsOf] at hm'
  · have hm' : row ∉ ix.tree.rows := fun hc => hm (h2.mem_iff.1 hc)
    rcases h1 with hg | hb
    · exact (remove_good hg row).2 hm'
    · exact ⟨-2, remove_blank h hb row, by decide⟩

/-- a balanced tree is not deep -/
theorem deep_bound : ∀ (k : Nat) (t : Tree), Balanced t → k ≤ depth t → 2 ^ (k / 2) ≤ (inOrder t).length + 1 ∧
    2 ^ ((k + 1) / 2) ≤ (inOrder t).length + 1
  | 0, _, _, _ => by simp
  | 1, .nil, _, h => by simp [depth] at h
  | 1, .node n l r, _, _ => by simp [inOrder]; omega
  | k + 2, .nil, _, h => by simp [depth] at h
  | k + 2, .node n l r, ⟨b1, b2, b3, b4⟩, h => by
    simp only [depth] at h
    have h1 : k ≤ depth l := by omega
    have h2 : k ≤ depth r := by omega
    obtain ⟨l1, l2⟩ := deep_bound k l b3 h1
    obtain ⟨r1, r2⟩ := deep_bound k r b4 h2
    have e1 : (k + 2) / 2 = k / 2 + 1 := by omega
    have e2 : (k + 2 + 1) / 2 = (k + 1) / 2 + 1 := by omega
    rw [e1, e2, Nat.pow_succ, Nat.pow_succ]
    simp only [inOrder, List.length_append, List.length_cons, List.length_nil]
    constructor <;> omega

/-- The depth of the tree is logarithmic in the number of nodes: with less than 2^64 nodes it is at
most 128, so that the heights fit into the bytes that hold them. -/
theorem C53_depth {E : Env} (h : E.Ok) {ix : Idx} {rows : List Row} (hr : Reach E ix rows) :
    2 ^ ((depth ix.tree + 1) / 2) ≤ (inOrder ix.tree).length + 1 ∧
    ((inOrder ix.tree).length + 1 ≤ 2 ^ 64 → depth ix.tree ≤ 128) := by
  have hb := (C53_index_right_partial h hr).2.2.1
  have h1 := (deep_bound (depth ix.tree) ix.tree hb (Nat.le_refl _)).2
  refine ⟨h1, fun hn => ?_⟩
  have h2 : (depth ix.tree + 1) / 2 ≤ 64 := (Nat.pow_le_pow_iff_right (by decide)).1 (Nat.le_trans h1 hn)
  omega

/-- The predecessor in the chain of a node with a left child is the rightmost node of its left
subtree, which is where the code takes it from. -/
theorem C53_chain {E : Env} (h : E.Ok) {ix : Idx} {rows : List Row} (hr : Reach E ix rows) {p : Path} {n : Node} {l r : Tree}
    (hp : ix.tree.get p = some (.node n l r)) (hl : l ≠ .nil) :
    ∃ g gl a b, l.get l.lastPath = some (.node g gl .nil) ∧ ix.chain = a ++ g.id :: n.id :: b := by
  obtain ⟨_, _, _, hc, _⟩ := C53_index_right_partial h hr
  have hlN : l.isNil = false := by
    cases l with
    | nil => exact absurd rfl hl
    | node _ _ _ => rfl
  obtain ⟨g, gl, k1, _, k3⟩ := get_lastPath l hlN
  refine ⟨g, gl, (ix.tree.before p ++ (l.before l.lastPath ++ gl.nodes)).map Node.id,
    (r.nodes ++ ix.tree.after p).map Node.id, k1, ?_⟩
  rw [hc, inOrder_eq, nodes_get hp]
  simp only [Tree.nodes]
  rw [k3]
  simp

/-- If there is no memory for a node, an addition either succeeds, or changes nothing, or has put the
new row in the place of another one, which is lost. -/
theorem C53_no_memory {E : Env} (h : E.Ok) {ix : Idx} {rows : List Row} (hr : Reach E ix rows) (row : Row) :
    ∃ ix' ok, insert E none ix row = some (ix', ok) ∧ Ordered E (contents ix') ∧
      (ok = true → (contents ix').Perm (row :: rows)) ∧
      (ok = false → ix' = ix ∨ ∃ lost ∈ rows, (contents ix').Perm (row :: rows.erase lost)) := by
  haveI := h.trans
  obtain ⟨h1, h2⟩ := reach_inv h hr
  have hi : Inserted E none ix row := by
    rcases h1 with hg | hb
    · exact insert_good none hg row (by simp)
    · exact insert_blank h none hb row
  obtain ⟨ix', ok, e1, _, e3, e4, e5⟩ := hi
  refine ⟨ix', ok, e1, ?_, fun ho => ?_, fun ho => ?_⟩
  · rw [contents_eq]; exact ordered_of_srt e3.sok.srt
  · rw [contents_eq]
    exact (added_perm (e4 ho)).trans (h2.cons row)
  · rcases e5 ho with e | ⟨a, m, b, c, f1, f2⟩
    · exact Or.inl e
    · refine Or.inr ⟨m, ?_, ?_⟩
      · refine h2.mem_iff.1 ?_
        rw [f1]; simp
      · rw [contents_eq, f2]
        have h3 : (m :: (a ++ (b ++ c))).Perm rows := by
          refine List.Perm.trans ?_ h2
          rw [f1]
          exact List.perm_middle.symm
        have h4 := h3.erase m
        simp only [List.erase_cons_head] at h4
        refine List.Perm.trans ?_ (h4.cons row)
        rw [← List.append_assoc, ← List.append_assoc]
        exact List.perm_middle

theorem insBefore_mem {x new : Nat} : ∀ {c : List Nat} {y : Nat}, y ∈ insBefore x new c → y = new ∨ y ∈ c
  | [], _, h => by cases h
  | z :: zs, y, h => by
    simp only [insBefore] at h
    split at h
    · simpa using h
    · rcases List.mem_cons.1 h with h | h
      · exact Or.inr (by simp [h])
      · rcases insBefore_mem h with h | h
        · exact Or.inl h
        · exact Or.inr (by simp [h])

theorem insAfter_mem {x new : Nat} : ∀ {c : List Nat} {y : Nat}, y ∈ insAfter x new c → y = new ∨ y ∈ c
  | [], _, h => by cases h
  | z :: zs, y, h => by
    simp only [insAfter] at h
    split at h
    · simp only [List.mem_cons] at h ⊢
      rcases h with h | h | h
      · exact Or.inr (Or.inl h)
      · exact Or.inl h
      · exact Or.inr (Or.inr h)
    · rcases List.mem_cons.1 h with h | h
      · exact Or.inr (by simp [h])
      · rcases insAfter_mem h with h | h
        · exact Or.inl h
        · exact Or.inr (by simp [h])

theorem addLeaf_chain {E : Env} {ix ix' : Idx} {id : Nat} {t : Tree} {q : Path} {v : Word} {row : Row} {ch : Nat → List Nat} {ok : Bool}
    (h : addLeaf E ix (some id) t q v row ch = some (ix', ok)) : ix'.chain = ch id := by
  simp only [addLeaf, Option.map_eq_some_iff] at h
  obtain ⟨x, _, e⟩ := h
  cases e
  rfl

theorem insert_chain {E : Env} {ix ix' : Idx} {id : Nat} {row : Row} {ok : Bool} (h : insert E (some id) ix row = some (ix', ok)) :
    ∀ y ∈ ix'.chain, y = id ∨ y ∈ ix.chain := by
  intro y hy
  unfold TTree.insert at h
  simp only at h
  repeat' split at h
  all_goals first
    | (cases h; exact Or.inr hy)
    | (rw [addLeaf_chain h] at hy
       first
         | exact insBefore_mem hy
         | exact insAfter_mem hy)
    | cases h

/-- A new index on rows that are there already (Db/dbindex.c:1403-1417) has all of them, if the
allocator gives a different unused node each time. -/
theorem C53_create_index {E : Env} (h : E.Ok) (id : Nat) (rows : List (Row × Nat)) (hn : (id :: rows.map Prod.snd).Nodup) :
    ∃ ix, insertAll E (empty E id) (rows.map fun x => (x.1, some x.2)) = some ix ∧ Reach E ix (rows.map Prod.fst).reverse := by
  have key : ∀ (xs : List (Row × Nat)) (ix : Idx) (rs : List Row), Reach E ix rs → (xs.map Prod.snd).Nodup →
      (∀ x ∈ xs, x.2 ∉ ix.chain) →
      ∃ ix', insertAll E ix (xs.map fun x => (x.1, some x.2)) = some ix' ∧ Reach E ix' ((xs.map Prod.fst).reverse ++ rs) := by
    intro xs
    induction xs with
    | nil => intro ix rs hr _ _; exact ⟨ix, rfl, hr⟩
    | cons x xs ih =>
      intro ix rs hr hnd hx
      have hid := hx x (by simp)
      obtain ⟨ix', e1⟩ := (C53_index_total_partial h hr x.1).1 x.2 hid
      have hnd' := List.nodup_cons.1 hnd
      obtain ⟨ix2, e2, e3⟩ := ih ix' (x.1 :: rs) (Reach.add x.1 x.2 hr hid e1) hnd'.2 (by
        intro y hy hc
        rcases insert_chain e1 _ hc with hc | hc
        · exact hnd'.1 (List.mem_map.2 ⟨y, hy, hc⟩)
        · exact hx y (by simp [hy]) hc)
      refine ⟨ix2, ?_, by simpa using e3⟩
      simp only [List.map_cons, insertAll, e1, Option.bind_some]
      exact e2
  obtain ⟨ix, e1, e2⟩ := key rows (empty E id) [] (Reach.create id) (List.nodup_cons.1 hn).2 (by
    intro x hx hc
    simp only [empty, List.mem_singleton] at hc
    exact (List.nodup_cons.1 hn).1 (List.mem_map.2 ⟨x, hx, hc⟩))
  exact ⟨ix, e1, by simpa using e2⟩

/-! ### Keys that are values -/

/-- the index on a column of a database: `col` gives the field, `ill` is a word that stands for no value -/
def dbEnv (db : Compare.Db) (col : Row → Word) (ill : Word) : Env := ⟨col, Compare.ocmp db Compare.recDepth, ill⟩

/-- A database as in C52 gives such an order: the comparison is WG_COMPARE. -/
theorem C53_database {db : Compare.Db} (hg : Compare.Good db) (col : Row → Word) (ill : Word)
    (hcol : ∀ row, (db.val (col row)).isSome) (hill : db.val ill = none) :
    (dbEnv db col ill).Ok ∧ ∀ row w, Compare.WG_COMPARE db (col row) w = some ((dbEnv db col ill).cmp (col row) w) := by
  refine ⟨⟨?_, ?_⟩, fun row w => Compare.WG_COMPARE_eq hg _ _ (Or.inl (hcol row))⟩
  · show TransCmp (Compare.ocmp db Compare.recDepth)
    infer_instance
  · intro row
    have h1 := Compare.WG_COMPARE_eq hg (col row) ill (Or.inl (hcol row))
    have hne : col row ≠ ill := by
      intro e
      have := hcol row
      rw [e, hill] at this
      cases this
    obtain ⟨v, hv⟩ := Option.isSome_iff_exists.1 (hcol row)
    have hty : db.ty (col row) = v.ty := by simp [Compare.Db.ty, hv]
    have hty' : db.ty ill = -1 := by simp [Compare.Db.ty, hill]
    have hpos : 0 < v.ty := by cases v <;> simp [Compare.Val.ty]
    have hw : Compare.wgCompare db Compare.recDepth (col row) ill = some .gt := by
      show Compare.cmpWith db _ (col row) ill = some .gt
      unfold Compare.cmpWith
      rw [if_neg (by rw [hty, hty']; omega)]
      have : db.ty (col row) > db.ty ill := by rw [hty, hty']; omega
      simp [Compare.gtOrLt, this]
    rw [Compare.WG_COMPARE, if_neg hne, hw] at h1
    exact (Option.some.inj h1).symm

/-! ### Examples -/

/-- rows whose keys are their numbers -/
def plain : Env := ⟨fun r => (r : Int), fun a b => compare (α := Int) a b, -1⟩

theorem plain_ok : plain.Ok := by
  refine ⟨?_, ?_⟩
  · show TransCmp (fun a b : Int => compare a b)
    infer_instance
  · intro row
    show compare (row : Int) (-1) = .gt
    rw [Compare.compare_int, if_neg (by omega)]
    simp [Compare.gtOrLt]
    omega

/-- twenty rows, every other one removed again -/
def twenty : Option Idx :=
  (insertAll plain (empty plain 100) ((List.range 20).map fun i => ((i * 7) % 20, some i))).bind fun ix =>
    ((List.range 10).map (· * 2)).foldlM (fun ix r => (remove plain ix r).map Prod.fst) ix

example : twenty.map (fun ix => (contents ix, depth ix.tree, ix.chain.length)) = some ([1, 3, 5, 7, 9, 11, 13, 15, 17, 19], 2, 3) := by
  decide +kernel

/-- eight rows fill the root -/
def eight : Option Idx := insertAll plain (empty plain 100) ((List.range 8).map fun i => (i * 2, some i))

/-- Without memory for a node the ninth row drives out the smallest: row 0 is lost, though the function
says that nothing was added. -/
theorem C53_row_lost : (eight.bind fun ix => insert plain none ix 5).map (fun x => (contents x.1, x.2)) =
    some ([2, 4, 5, 6, 8, 10, 12, 14], false) := by
  decide +kernel

/-- an index of twenty rows -/
example : ∃ ix, Reach plain ix (List.range 20) ∧ (contents ix).Perm (List.range 20) := by
  obtain ⟨ix, _, h⟩ := C53_create_index plain_ok 100 ((List.range 20).reverse.map fun i => (i, i)) (by decide)
  have e : (((List.range 20).reverse.map fun i => (i, i)).map Prod.fst).reverse = List.range 20 := by decide
  rw [e] at h
  exact ⟨ix, h, (C53_index_right_partial plain_ok h).1⟩

/-- ... so that eight rows are reached, and one of them is lost -/
example : ∃ ix, Reach plain ix [14, 12, 10, 8, 6, 4, 2, 0] ∧ (insert plain none ix 5).map (fun x => (contents x.1, x.2)) =
    some ([2, 4, 5, 6, 8, 10, 12, 14], false) := by
  obtain ⟨ix, e1, h⟩ := C53_create_index plain_ok 100 ((List.range 8).map fun i => (i * 2, i)) (by decide)
  refine ⟨ix, h, ?_⟩
  have e2 : eight = some ix := e1
  have := C53_row_lost
  rw [e2] at this
  exact this

end Gkc.Props.TT
