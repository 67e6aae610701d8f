import Verif.Query
import Verif.TTreeRemove
/-
Places in a T-tree and their ranks among the rows (used for C54).
-/
namespace Gkc.Query
open Gkc.Compare (Word)
open Gkc.TTree Std

/-! ### Chains -/

theorem nextIn_spec {f : Node → Nat} : ∀ {a b : List Node} {n : Node}, ((a ++ n :: b).map f).Nodup →
    nextIn (f n) ((a ++ n :: b).map f) = b.head?.map f
  | [], [], n, _ => by simp [nextIn]
  | [], m :: b, n, _ => by simp [nextIn]
  | [x], b, n, h => by
    have hx : f x ≠ f n := by
      intro hc
      simp [hc] at h
    have := nextIn_spec (f := f) (a := []) (b := b) (n := n) (List.nodup_cons.1 h).2
    simp only [List.cons_append, List.nil_append, List.map_cons] at this ⊢
    rw [nextIn, if_neg hx, this]
  | x :: y :: a, b, n, h => by
    have hx : f x ≠ f n := by
      intro hc
      simp [hc] at h
    have := nextIn_spec (f := f) (a := y :: a) (b := b) (n := n) (List.nodup_cons.1 h).2
    simp only [List.cons_append, List.map_cons] at this ⊢
    rw [nextIn, if_neg hx, this]

theorem prevIn_first {x : Nat} : ∀ {l : List Nat}, x ∉ l.tail → prevIn x l = none
  | [], _ => rfl
  | [_], _ => rfl
  | y :: z :: ys, h => by
    simp only [List.tail_cons, List.mem_cons, not_or] at h
    rw [prevIn, if_neg (Ne.symm h.1)]
    exact prevIn_first (l := z :: ys) h.2

theorem prevIn_spec {f : Node → Nat} : ∀ {a b : List Node} {n : Node}, ((a ++ n :: b).map f).Nodup →
    prevIn (f n) ((a ++ n :: b).map f) = a.getLast?.map f
  | [], b, n, h => by
    rw [prevIn_first]
    · rfl
    · simpa using (List.nodup_cons.1 h).1
  | [x], b, n, _ => by simp [prevIn]
  | x :: y :: a, b, n, h => by
    have h2 := (List.nodup_cons.1 h).2
    have hy : f y ≠ f n := by
      intro hc
      simp [hc] at h2
    have := prevIn_spec (f := f) (a := y :: a) (b := b) (n := n) h2
    simp only [List.cons_append, List.map_cons] at this ⊢
    rw [prevIn, if_neg hy, this]
    simp [List.getLast?_cons]

theorem find_id : ∀ {a b : List Node} {n : Node}, ((a ++ n :: b).map Node.id).Nodup →
    (a ++ n :: b).find? (fun m => m.id = n.id) = some n
  | [], b, n, _ => by simp
  | x :: a, b, n, h => by
    have hx : x.id ≠ n.id := by
      intro hc
      simp [hc] at h
    rw [List.cons_append, List.find?_cons, decide_eq_false hx]
    exact find_id (List.nodup_cons.1 h).2

/-! ### Ranks -/

/-- an index whose nodes are filled and linked in order -/
structure Lined (ix : Idx) : Prop where
  chain : ix.chain = ix.tree.nodes.map Node.id
  nodup : (ix.tree.nodes.map Node.id).Nodup
  ne : ∀ n ∈ ix.tree.nodes, n.vals ≠ []

theorem Lined.next {ix : Idx} (h : Lined ix) {a b : List Node} {n : Node} (e : ix.tree.nodes = a ++ n :: b) :
    nextIn n.id ix.chain = b.head?.map Node.id := by
  have := h.nodup
  rw [h.chain, e]
  rw [e] at this
  exact nextIn_spec this

theorem Lined.prev {ix : Idx} (h : Lined ix) {a b : List Node} {n : Node} (e : ix.tree.nodes = a ++ n :: b) :
    prevIn n.id ix.chain = a.getLast?.map Node.id := by
  have := h.nodup
  rw [h.chain, e]
  rw [e] at this
  exact prevIn_spec this

theorem Lined.node {ix : Idx} (h : Lined ix) {a b : List Node} {n : Node} (e : ix.tree.nodes = a ++ n :: b) :
    nodeOf ix n.id = some n := by
  have := h.nodup
  unfold nodeOf
  rw [e]
  rw [e] at this
  exact find_id this

/-- two nodes of the chain: the same, or one before the other -/
theorem split_cases {a b a' b' : List Node} {n m : Node} (e : a ++ n :: b = a' ++ m :: b') :
    (a = a' ∧ n = m ∧ b = b') ∨ (∃ x, a' = a ++ n :: x) ∨ (∃ x, a = a' ++ m :: x) := by
  rcases List.append_eq_append_iff.1 e with ⟨x, e1, e2⟩ | ⟨x, e1, e2⟩
  · cases x with
    | nil =>
      simp only [List.nil_append, List.cons.injEq] at e2
      exact Or.inl ⟨by simpa using e1.symm, e2.1, e2.2⟩
    | cons y x =>
      simp only [List.cons_append, List.cons.injEq] at e2
      exact Or.inr (Or.inl ⟨x, by rw [e1, e2.1]⟩)
  · cases x with
    | nil =>
      simp only [List.nil_append, List.cons.injEq] at e2
      exact Or.inl ⟨by simpa using e1, e2.1.symm, e2.2.symm⟩
    | cons y x =>
      simp only [List.cons_append, List.cons.injEq] at e2
      exact Or.inr (Or.inr ⟨x, by rw [e1, e2.1]⟩)

/-- the place is before the row with this rank (behind the last row if there is no node) -/
def StartAt (ix : Idx) (o : Option Nat) (s k : Nat) : Prop :=
  (o = none ∧ k = ix.tree.rows.length) ∨
  ∃ a n b, ix.tree.nodes = a ++ n :: b ∧ o = some n.id ∧ s < n.vals.length ∧ k = (rowsOf a).length + s

/-- the place is at the row before this rank (no node if the rank is 0) -/
def EndAt (ix : Idx) (o : Option Nat) (s : Int) (k : Nat) : Prop :=
  (o = none ∧ k = 0) ∨
  ∃ a n b, ∃ i : Nat, ix.tree.nodes = a ++ n :: b ∧ o = some n.id ∧ s = i ∧ i < n.vals.length ∧ k = (rowsOf a).length + i + 1

/-- a cursor with the rank of the next row and the end -/
def Pos (ix : Idx) (c : Cursor) (k t : Nat) : Prop :=
  (c.cur = none ∧ k = t) ∨ (k < t ∧ c.cur ≠ none ∧ StartAt ix c.cur c.slot k ∧ EndAt ix c.stop c.stopSlot t)

theorem rowsOf_nil : rowsOf [] = [] := rfl

theorem rows_len {ix : Idx} {a b : List Node} {n : Node} (e : ix.tree.nodes = a ++ n :: b) :
    ix.tree.rows.length = (rowsOf a).length + n.vals.length + (rowsOf b).length := by
  unfold Tree.rows
  rw [e, rowsOf_append, rowsOf_cons]
  simp only [List.length_append]
  omega

theorem rows_get {ix : Idx} {a b : List Node} {n : Node} (e : ix.tree.nodes = a ++ n :: b) {s : Nat} (hs : s < n.vals.length) :
    ix.tree.rows[(rowsOf a).length + s]? = n.vals[s]? := by
  unfold Tree.rows
  rw [e, rowsOf_append, rowsOf_cons, List.getElem?_append_right (by omega), List.getElem?_append_left (by omega)]
  congr 1
  omega

theorem EndAt.le {ix : Idx} {o : Option Nat} {s : Int} {k : Nat} (h : EndAt ix o s k) : k ≤ ix.tree.rows.length := by
  rcases h with ⟨_, rfl⟩ | ⟨a, n, b, i, e, _, _, hi, rfl⟩
  · omega
  · rw [rows_len e]
    omega

theorem ids_ne {ix : Idx} (h : Lined ix) {a x b : List Node} {n m : Node} (e : ix.tree.nodes = a ++ n :: (x ++ m :: b)) :
    n.id ≠ m.id := by
  have := h.nodup
  rw [e] at this
  simp only [List.map_append, List.map_cons] at this
  have := (List.nodup_cons.1 (List.nodup_append.1 this).2.1).1
  intro hc
  exact this (by simp [hc])

theorem rowsOf_pos {ix : Idx} (h : Lined ix) {a b x : List Node} {m : Node} (e : ix.tree.nodes = a ++ (m :: x) ++ b) :
    0 < (rowsOf (m :: x)).length := by
  have := h.ne m (by rw [e]; simp)
  rw [rowsOf_cons, List.length_append]
  have := List.length_pos_iff.2 this
  omega

theorem settle_pos {ix : Idx} (h : Lined ix) {c : Cursor} {s t : Nat} (h1 : StartAt ix c.cur c.slot s)
    (h2 : EndAt ix c.stop c.stopSlot t) (hst : s ≤ t) : Pos ix (settle ix c) s t := by
  have hle := h2.le
  rcases h1 with ⟨e, hs⟩ | ⟨a, n, b, e, ec, hlt, hs⟩
  · refine Or.inl ⟨?_, by omega⟩
    unfold settle
    rw [e]
  · have h1' : StartAt ix c.cur c.slot s := Or.inr ⟨a, n, b, e, ec, hlt, hs⟩
    have hc : c.cur ≠ none := by rw [ec]; simp
    unfold settle
    rw [ec]
    simp only []
    have hp := h.prev e
    rcases h2 with ⟨e2, ht⟩ | ⟨a', m, b', i, e', es, ei, hi, ht⟩
    · rw [e2]
      simp only [reduceCtorEq, false_and, if_false, if_true]
      exact Or.inl ⟨rfl, by omega⟩
    · have h2' : EndAt ix c.stop c.stopSlot t := Or.inr ⟨a', m, b', i, e', es, ei, hi, ht⟩
      rcases split_cases (e.symm.trans e') with ⟨r1, r2, r3⟩ | ⟨x, r1⟩ | ⟨x, r1⟩
      · subst r1 r2 r3
        by_cases hq : i < c.slot
        · rw [if_pos ⟨es, by omega⟩]
          exact Or.inl ⟨rfl, by omega⟩
        · rw [if_neg (by omega), if_neg (by rw [es]; simp), if_neg]
          · exact Or.inr ⟨by omega, hc, h1', h2'⟩
          · rw [es, hp]
            intro hcc
            cases hl : a.getLast? with
            | none => rw [hl] at hcc; simp at hcc
            | some y =>
              rw [hl] at hcc
              obtain ⟨ys, hy⟩ := List.getLast?_eq_some_iff.1 hl
              simp only [Option.map_some, Option.some.injEq] at hcc
              have := ids_ne h (a := ys) (n := y) (x := []) (m := n) (b := b) (by rw [e, hy]; simp)
              exact this hcc.symm
      · subst r1
        have hne : n.id ≠ m.id := ids_ne h (a := a) (x := x) (b := b') (by rw [e']; simp)
        have hlen : (rowsOf (a ++ n :: x)).length = (rowsOf a).length + n.vals.length + (rowsOf x).length := by
          rw [rowsOf_append, rowsOf_cons]
          simp only [List.length_append]
          omega
        rw [if_neg (by rw [es]; simp only [Option.some.injEq]; intro hcc; exact hne hcc.1.symm), if_neg (by rw [es]; simp), if_neg]
        · exact Or.inr ⟨by omega, hc, h1', h2'⟩
        · rw [es, hp]
          intro hcc
          cases hl : a.getLast? with
          | none => rw [hl] at hcc; simp at hcc
          | some y =>
            rw [hl] at hcc
            obtain ⟨ys, hy⟩ := List.getLast?_eq_some_iff.1 hl
            simp only [Option.map_some, Option.some.injEq] at hcc
            have := ids_ne h (a := ys) (n := y) (x := n :: x) (m := m) (b := b') (by rw [e', hy]; simp)
            exact this hcc.symm
      · subst r1
        have hne : m.id ≠ n.id := ids_ne h (a := a') (x := x) (b := b) (by rw [e]; simp)
        have hlen : (rowsOf (a' ++ m :: x)).length = (rowsOf a').length + m.vals.length + (rowsOf x).length := by
          rw [rowsOf_append, rowsOf_cons]
          simp only [List.length_append]
          omega
        rw [if_neg (by rw [es]; simp only [Option.some.injEq]; intro hcc; exact hne hcc.1), if_neg (by rw [es]; simp)]
        cases x with
        | nil =>
          rw [if_pos (by rw [es, hp]; simp)]
          exact Or.inl ⟨rfl, by omega⟩
        | cons y x =>
          have := rowsOf_pos h (a := a' ++ [m]) (m := y) (x := x) (b := n :: b) (by rw [e]; simp)
          omega

theorem stepT_none {ix : Idx} {c : Cursor} (hc : c.cur = none) : stepT ix c = some none := by
  unfold stepT
  rw [hc]

theorem stepT_spec {ix : Idx} (h : Lined ix) {c : Cursor} {k t : Nat} (hp : Pos ix c k t) (hk : k < t) :
    ∃ r c', stepT ix c = some (some (r, c')) ∧ ix.tree.rows[k]? = some r ∧ Pos ix c' (k + 1) t := by
  rcases hp with ⟨_, hp⟩ | ⟨_, hc, h1, h2⟩
  · omega
  · have hle := h2.le
    rcases h1 with ⟨e, _⟩ | ⟨a, n, b, e, ec, hlt, hs⟩
    · exact absurd e hc
    · have hr : n.vals[c.slot]? = some n.vals[c.slot] := List.getElem?_eq_getElem hlt
      have hget : ix.tree.rows[k]? = some n.vals[c.slot] := by
        rw [hs, rows_get e hlt, hr]
      have hlen := rows_len e
      unfold stepT
      rw [ec]
      simp only []
      rw [h.node e]
      simp only []
      rw [hr]
      simp only []
      by_cases hq : c.stop = some n.id ∧ c.stopSlot = c.slot
      · rw [if_pos hq]
        refine ⟨_, _, rfl, hget, Or.inl ⟨rfl, ?_⟩⟩
        rcases h2 with ⟨e2, ht⟩ | ⟨a', m, b', i, e', es, ei, hi, ht⟩
        · rw [hq.1] at e2; cases e2
        · have hid : m.id = n.id := by
            have := es.symm.trans hq.1
            simpa using this
          rcases split_cases (e.symm.trans e') with ⟨r1, r2, r3⟩ | ⟨x, r1⟩ | ⟨x, r1⟩
          · subst r1 r2 r3
            have := hq.2
            omega
          · subst r1
            exact absurd hid.symm (ids_ne h (a := a) (x := x) (b := b') (by rw [e']; simp))
          · subst r1
            exact absurd hid (ids_ne h (a := a') (x := x) (b := b) (by rw [e]; simp))
      · rw [if_neg hq]
        have hk1 : k + 1 < t := by
          rcases h2 with ⟨e2, ht⟩ | ⟨a', m, b', i, e', es, ei, hi, ht⟩
          · omega
          · rcases split_cases (e.symm.trans e') with ⟨r1, r2, r3⟩ | ⟨x, r1⟩ | ⟨x, r1⟩
            · subst r1 r2 r3
              have : i ≠ c.slot := by
                intro hcc
                exact hq ⟨es, by omega⟩
              omega
            · subst r1
              have hlen : (rowsOf (a ++ n :: x)).length = (rowsOf a).length + n.vals.length + (rowsOf x).length := by
                rw [rowsOf_append, rowsOf_cons]
                simp only [List.length_append]
                omega
              omega
            · subst r1
              have hlen : (rowsOf (a' ++ m :: x)).length = (rowsOf a').length + m.vals.length + (rowsOf x).length := by
                rw [rowsOf_append, rowsOf_cons]
                simp only [List.length_append]
                omega
              omega
        by_cases hg : c.slot + 1 ≥ n.vals.length
        · rw [if_pos hg]
          cases b with
          | nil =>
            rw [rowsOf_nil, List.length_nil] at hlen
            omega
          | cons m b =>
            have hnx := h.next e
            simp only [List.head?_cons, Option.map_some] at hnx
            refine ⟨_, _, rfl, hget, Or.inr ⟨hk1, ?_, Or.inr ⟨a ++ [n], m, b, by rw [e]; simp, hnx, ?_, ?_⟩, h2⟩⟩
            · show nextIn n.id ix.chain ≠ none
              rw [hnx]; simp
            · exact List.length_pos_iff.2 (h.ne m (by rw [e]; simp))
            · rw [rowsOf_append, rowsOf_cons]
              simp only [List.length_append, rowsOf_nil, List.length_nil]
              omega
        · rw [if_neg hg]
          refine ⟨_, _, rfl, hget, Or.inr ⟨hk1, by simp, Or.inr ⟨a, n, b, e, rfl, ?_, ?_⟩, h2⟩⟩
          · show c.slot + 1 < _
            omega
          · show _ = _ + (c.slot + 1)
            omega

/-! ### The searches -/

/-- the bound below -/
def lower (E : Env) (lo : Word) (inc : Bool) (r : Row) : Bool :=
  if lo = E.ill then true else if inc then E.cmp (E.key r) lo ≠ .lt else E.cmp (E.key r) lo = .gt

/-- the bound above -/
def upper (E : Env) (hi : Word) (inc : Bool) (r : Row) : Bool :=
  if hi = E.ill then true else if inc then E.cmp (E.key r) hi ≠ .gt else E.cmp (E.key r) hi = .lt

/-- the rows before the rank do not have the property, those from it on do -/
def Cut (rows : List Row) (P : Row → Prop) (k : Nat) : Prop := k ≤ rows.length ∧ (∀ r ∈ rows.take k, ¬ P r) ∧ ∀ r ∈ rows.drop k, P r

/-- a node in the chain, and on which side of the cut it is -/
def FoundAt (ix : Idx) (P : Row → Prop) (n : Node) (bt : Bound) (a b : List Node) : Prop :=
  ix.tree.nodes = a ++ n :: b ∧ (∀ x ∈ rowsOf a, ¬ P x) ∧ (∀ x ∈ rowsOf b, P x) ∧
    match bt with
    | .really => True
    | .deadLeft => ∀ x ∈ n.vals, P x
    | .deadRight => ∀ x ∈ n.vals, ¬ P x

section
variable {E : Env} [TransCmp E.cmp]

theorem good_lined {ix : Idx} (hg : Good E ix) : Lined ix :=
  ⟨hg.chain, by rw [← hg.chain]; exact hg.nodup, fun n hn => (hg.sok.ok n hn).ne⟩

theorem left_found {ix : Idx} (hg : Good E ix) (k : Word) :
    ∃ a n b bt, nodeAt ix (leftmost E k ix.tree none) = some (n, bt) ∧
      FoundAt ix (fun r => E.cmp (E.key r) k ≠ .lt) n bt a b ∧ (bt = .really → E.le k n.mx) := by
  obtain ⟨f, h1, h2⟩ := leftmost_spec (E := E) k ix.tree none hg.ne hg.sok (by simp)
  cases f with
  | back =>
    obtain ⟨⟨x, hx, _⟩, _⟩ := h2
    cases hx
  | at_ p bt =>
    obtain ⟨⟨n, l, r, hp, hspec⟩, -⟩ := h2
    have hnodes := nodes_get hp
    have e0 : ix.tree.before p ++ ((Tree.node n l r).nodes ++ ix.tree.after p) =
        (ix.tree.before p ++ l.nodes) ++ n :: (r.nodes ++ ix.tree.after p) := by
      simp [Tree.nodes]
    rw [e0] at hnodes
    have hsok := hg.sok
    rw [hnodes] at hsok
    have hpw := List.pairwise_append.1 hsok.pw
    have hPn : ∀ m ∈ ix.tree.before p ++ l.nodes, E.le m.mx n.mn := fun m hm => hpw.2.2 m hm n (by simp)
    have hnQ : ∀ m ∈ r.nodes ++ ix.tree.after p, E.le n.mx m.mn := fun m hm => (List.pairwise_cons.1 hpw.2.1).1 m hm
    have hn : NodeOk E n := hsok.ok n (by simp)
    have hsn : Srt E n.vals := hsok.vals (by simp)
    have hmm : E.le n.mn n.mx := mn_le_mx hn hsn
    have hlow : ∀ a : List Node, SOk E a → (∀ m ∈ a, E.lt m.mx k) → ∀ x ∈ rowsOf a, ¬ E.cmp (E.key x) k ≠ .lt := by
      intro a ha h x hx
      obtain ⟨m, hm, hx⟩ := List.mem_flatMap.1 hx
      have := lt_of_le_of_lt (node_between (ha.ok m hm) (ha.vals hm) hx).2 (h m hm)
      exact fun hc => hc this
    have hhigh : ∀ a : List Node, SOk E a → (∀ m ∈ a, E.le k m.mn) → ∀ x ∈ rowsOf a, E.cmp (E.key x) k ≠ .lt := by
      intro a ha h x hx
      exact (not_lt _ _).2 (rows_ge ha h x hx)
    have hsa : SOk E (ix.tree.before p ++ l.nodes) := hsok.left
    have hsb : SOk E (r.nodes ++ ix.tree.after p) := SOk.right (a := [n]) (SOk.right hsok)
    refine ⟨ix.tree.before p ++ l.nodes, n, r.nodes ++ ix.tree.after p, bt, ?_, ?_, ?_⟩
    · rw [h1]
      simp only [nodeAt, hp]
    · refine ⟨hnodes, ?_⟩
      cases bt with
      | really =>
        obtain ⟨c1, c2, c3⟩ := hspec
        exact ⟨hlow _ hsa c3, hhigh _ hsb (fun m hm => le_trans c2 (hnQ m hm)), trivial⟩
      | deadLeft =>
        obtain ⟨c0, c1, c2, c3⟩ := hspec
        subst c0
        refine ⟨hlow _ hsa (by simpa [Tree.nodes] using c3), hhigh _ hsb (fun m hm => le_trans c2 (hnQ m hm)), ?_⟩
        intro x hx
        exact (not_lt _ _).2 (le_trans (le_of_lt c1) (node_between hn hsn hx).1)
      | deadRight =>
        obtain ⟨c0, c1, c2⟩ := hspec
        subst c0
        refine ⟨hlow _ hsa (fun m hm => lt_of_le_of_lt (le_trans (hPn m hm) hmm) c1),
          hhigh _ hsb (fun m hm => le_of_lt (c2 m (by simpa [Tree.nodes] using hm))), ?_⟩
        intro x hx hc
        exact hc (lt_of_le_of_lt (node_between hn hsn hx).2 c1)
    · intro hb
      subst hb
      exact hspec.2.1

theorem right_found {ix : Idx} (hg : Good E ix) (k : Word) :
    ∃ a n b bt, nodeAt ix (rightmost E k ix.tree none) = some (n, bt) ∧
      FoundAt ix (fun r => E.cmp (E.key r) k = .gt) n bt a b ∧ (bt = .really → E.le n.mn k) := by
  obtain ⟨f, h1, h2⟩ := rightmost_spec (E := E) k ix.tree none hg.ne hg.sok (by simp)
  cases f with
  | back =>
    obtain ⟨⟨x, hx, _⟩, _⟩ := h2
    cases hx
  | at_ p bt =>
    obtain ⟨⟨n, l, r, hp, hspec⟩, -⟩ := h2
    have hnodes := nodes_get hp
    have e0 : ix.tree.before p ++ ((Tree.node n l r).nodes ++ ix.tree.after p) =
        (ix.tree.before p ++ l.nodes) ++ n :: (r.nodes ++ ix.tree.after p) := by
      simp [Tree.nodes]
    rw [e0] at hnodes
    have hsok := hg.sok
    rw [hnodes] at hsok
    have hpw := List.pairwise_append.1 hsok.pw
    have hPn : ∀ m ∈ ix.tree.before p ++ l.nodes, E.le m.mx n.mn := fun m hm => hpw.2.2 m hm n (by simp)
    have hnQ : ∀ m ∈ r.nodes ++ ix.tree.after p, E.le n.mx m.mn := fun m hm => (List.pairwise_cons.1 hpw.2.1).1 m hm
    have hn : NodeOk E n := hsok.ok n (by simp)
    have hsn : Srt E n.vals := hsok.vals (by simp)
    have hmm : E.le n.mn n.mx := mn_le_mx hn hsn
    have hlow : ∀ a : List Node, SOk E a → (∀ m ∈ a, E.le m.mx k) → ∀ x ∈ rowsOf a, ¬ E.cmp (E.key x) k = .gt := by
      intro a ha h x hx
      exact rows_le ha h x hx
    have hhigh : ∀ a : List Node, SOk E a → (∀ m ∈ a, E.lt k m.mn) → ∀ x ∈ rowsOf a, E.cmp (E.key x) k = .gt := by
      intro a ha h x hx
      obtain ⟨m, hm, hx⟩ := List.mem_flatMap.1 hx
      exact (gt_iff _ _).2 (lt_of_lt_of_le (h m hm) (node_between (ha.ok m hm) (ha.vals hm) hx).1)
    have hsa : SOk E (ix.tree.before p ++ l.nodes) := hsok.left
    have hsb : SOk E (r.nodes ++ ix.tree.after p) := SOk.right (a := [n]) (SOk.right hsok)
    refine ⟨ix.tree.before p ++ l.nodes, n, r.nodes ++ ix.tree.after p, bt, ?_, ?_, ?_⟩
    · rw [h1]
      simp only [nodeAt, hp]
    · refine ⟨hnodes, ?_⟩
      cases bt with
      | really =>
        obtain ⟨c1, c2, c3⟩ := hspec
        exact ⟨hlow _ hsa (fun m hm => le_trans (hPn m hm) c1), hhigh _ hsb c3, trivial⟩
      | deadLeft =>
        obtain ⟨c0, c1, c2⟩ := hspec
        subst c0
        refine ⟨hlow _ hsa (fun m hm => le_of_lt (c2 m (by simpa [Tree.nodes] using hm))),
          hhigh _ hsb (fun m hm => lt_of_lt_of_le (lt_of_lt_of_le c1 hmm) (hnQ m hm)), ?_⟩
        intro x hx
        exact (gt_iff _ _).2 (lt_of_lt_of_le c1 (node_between hn hsn hx).1)
      | deadRight =>
        obtain ⟨c0, c1, c2, c3⟩ := hspec
        subst c0
        refine ⟨hlow _ hsa (fun m hm => le_trans (hPn m hm) c2), hhigh _ hsb (by simpa [Tree.nodes] using c3), ?_⟩
        intro x hx
        exact le_of_lt (lt_of_le_of_lt (node_between hn hsn hx).2 c1)
    · intro hb
      subst hb
      exact hspec.1

theorem first_spec {k : Word} {vals : List Row} (hs : Srt E vals) (h : ∃ x ∈ vals, E.le k (E.key x)) :
    ∃ s, tnodeFirst E k vals = some s ∧ s < vals.length ∧ (∀ x ∈ vals.take s, ¬ E.cmp (E.key x) k ≠ .lt) ∧
      ∀ x ∈ vals.drop s, E.cmp (E.key x) k ≠ .lt := by
  unfold tnodeFirst
  cases hf : vals.findIdx? (fun v => decide (E.cmp (E.key v) k ≠ .lt)) with
  | none =>
    rw [List.findIdx?_eq_none_iff] at hf
    obtain ⟨x, hx, hk⟩ := h
    have := hf x hx
    exact absurd ((not_lt _ _).2 hk) (by simpa using this)
  | some s =>
    obtain ⟨hlt, h1, h2⟩ := List.findIdx?_eq_some_iff_getElem.1 hf
    refine ⟨s, rfl, hlt, ?_, ?_⟩
    · intro x hx
      obtain ⟨i, hi, rfl⟩ := List.mem_take_iff_getElem.1 hx
      have := h2 i (by omega)
      simpa using this
    · intro x hx
      obtain ⟨i, hi, rfl⟩ := List.mem_drop_iff_getElem.1 hx
      have hb : E.le k (E.key vals[s]) := (not_lt _ _).1 (by simpa using h1)
      refine (not_lt _ _).2 ?_
      by_cases hz : i = 0
      · subst hz
        simpa using hb
      · exact le_trans hb (List.pairwise_iff_getElem.1 hs s (s + i) hlt (by omega) (by omega))

theorem last_spec {k : Word} {vals : List Row} (hs : Srt E vals) (h : ∃ x ∈ vals, E.le (E.key x) k) :
    ∃ s, tnodeLast E k vals = some s ∧ s < vals.length ∧ (∀ x ∈ vals.take (s + 1), ¬ E.cmp (E.key x) k = .gt) ∧
      ∀ x ∈ vals.drop (s + 1), E.cmp (E.key x) k = .gt := by
  unfold tnodeLast
  cases hf : vals.reverse.findIdx? (fun v => decide (E.cmp (E.key v) k ≠ .gt)) with
  | none =>
    rw [List.findIdx?_eq_none_iff] at hf
    obtain ⟨x, hx, hk⟩ := h
    have := hf x (by simpa using hx)
    exact absurd hk (by simpa [Env.le] using this)
  | some i =>
    obtain ⟨hlt, h1, h2⟩ := List.findIdx?_eq_some_iff_getElem.1 hf
    simp only [List.length_reverse] at hlt
    simp only [List.getElem_reverse] at h1 h2
    have hb : E.le (E.key vals[vals.length - 1 - i]) k := by simpa [Env.le] using h1
    refine ⟨vals.length - 1 - i, rfl, by omega, ?_, ?_⟩
    · intro x hx
      obtain ⟨j, hj, rfl⟩ := List.mem_take_iff_getElem.1 hx
      show E.le _ _
      by_cases hz : j = vals.length - 1 - i
      · subst hz
        exact hb
      · exact le_trans (List.pairwise_iff_getElem.1 hs j (vals.length - 1 - i) (by omega) (by omega) (by omega)) hb
    · intro x hx
      obtain ⟨j, hj, rfl⟩ := List.mem_drop_iff_getElem.1 hx
      have := h2 (vals.length - 1 - (vals.length - 1 - i + 1 + j)) (by omega)
      have e : vals.length - 1 - (vals.length - 1 - (vals.length - 1 - i + 1 + j)) = vals.length - 1 - i + 1 + j := by omega
      simpa [e] using this

end

/-- the rank of a place in a node -/
theorem cut_of_split {ix : Idx} {P : Row → Prop} {a b : List Node} {n : Node} (e : ix.tree.nodes = a ++ n :: b)
    (ha : ∀ x ∈ rowsOf a, ¬ P x) (hb : ∀ x ∈ rowsOf b, P x) {s : Nat} (hs : s ≤ n.vals.length)
    (h1 : ∀ x ∈ n.vals.take s, ¬ P x) (h2 : ∀ x ∈ n.vals.drop s, P x) : Cut ix.tree.rows P ((rowsOf a).length + s) := by
  have hr : ix.tree.rows = (rowsOf a ++ n.vals.take s) ++ (n.vals.drop s ++ rowsOf b) := by
    unfold Tree.rows
    rw [e, rowsOf_append, rowsOf_cons]
    conv => lhs; rw [← List.take_append_drop s n.vals]
    simp only [List.append_assoc]
  have hl : (rowsOf a ++ n.vals.take s).length = (rowsOf a).length + s := by
    rw [List.length_append, List.length_take]
    omega
  refine ⟨?_, ?_, ?_⟩
  · rw [rows_len e]
    omega
  · rw [hr, ← hl, List.take_left']
    · intro x hx
      rcases List.mem_append.1 hx with hx | hx
      · exact ha x hx
      · exact h1 x hx
    · rfl
  · rw [hr, ← hl, List.drop_left']
    · intro x hx
      rcases List.mem_append.1 hx with hx | hx
      · exact h2 x hx
      · exact hb x hx
    · rfl

/-- the place behind the last row of a node -/
theorem start_next {ix : Idx} (h : Lined ix) {a b : List Node} {n : Node} (e : ix.tree.nodes = a ++ n :: b) :
    StartAt ix (nextIn n.id ix.chain) 0 ((rowsOf a).length + n.vals.length) := by
  rw [h.next e]
  have hl := rows_len e
  cases b with
  | nil =>
    refine Or.inl ⟨rfl, ?_⟩
    rw [hl, rowsOf_nil]
    simp
  | cons m b =>
    refine Or.inr ⟨a ++ [n], m, b, by rw [e]; simp, rfl, List.length_pos_iff.2 (h.ne m (by rw [e]; simp)), ?_⟩
    rw [rowsOf_append, rowsOf_cons, rowsOf_nil]
    simp

/-- the last row before a node -/
theorem end_prev {ix : Idx} (h : Lined ix) {a b : List Node} {n : Node} (e : ix.tree.nodes = a ++ n :: b) :
    ∃ o s, lastSlot ix (prevIn n.id ix.chain) = some (some (o, s)) ∧ EndAt ix o s (rowsOf a).length := by
  rw [h.prev e]
  rcases List.eq_nil_or_concat a with rfl | ⟨a', m, rfl⟩
  · exact ⟨none, -1, rfl, Or.inl ⟨rfl, rfl⟩⟩
  · have e' : ix.tree.nodes = a' ++ m :: (n :: b) := by rw [e]; simp
    have hm : 0 < m.vals.length := List.length_pos_iff.2 (h.ne m (by rw [e']; simp))
    simp only [List.concat_eq_append, List.getLast?_append, List.getLast?_singleton, Option.some_or, Option.map_some, lastSlot, h.node e']
    refine ⟨_, _, rfl, Or.inr ⟨a', m, n :: b, m.vals.length - 1, e', rfl, by omega, by omega, ?_⟩⟩
    rw [rowsOf_append, rowsOf_cons, rowsOf_nil]
    simp only [List.length_append, List.length_nil]
    omega

/-- the last row of a node -/
theorem end_last {ix : Idx} (h : Lined ix) {a b : List Node} {n : Node} (e : ix.tree.nodes = a ++ n :: b) :
    EndAt ix (some n.id) ((n.vals.length : Int) - 1) ((rowsOf a).length + n.vals.length) := by
  have hm : 0 < n.vals.length := List.length_pos_iff.2 (h.ne n (by rw [e]; simp))
  exact Or.inr ⟨a, n, b, n.vals.length - 1, e, rfl, by omega, by omega, by omega⟩

section
variable {E : Env} [TransCmp E.cmp]

theorem max_mem {n : Node} (h : NodeOk E n) {k : Word} (hk : E.le k n.mx) : ∃ x ∈ n.vals, E.le k (E.key x) := by
  obtain ⟨xs, x, e, hx⟩ := h.last
  exact ⟨x, by rw [e]; simp, by rw [hx]; exact hk⟩

theorem min_mem {n : Node} (h : NodeOk E n) {k : Word} (hk : E.le n.mn k) : ∃ x ∈ n.vals, E.le (E.key x) k := by
  obtain ⟨x, xs, e, hx⟩ := h.head
  exact ⟨x, by rw [e]; simp, by rw [hx]; exact hk⟩

theorem startPos_spec {ix : Idx} (hg : Good E ix) (lo : Word) (inc : Bool) :
    ∃ o s k, startPos E ix lo inc = some (some (o, s)) ∧ StartAt ix o s k ∧ Cut ix.tree.rows (fun r => lower E lo inc r = true) k := by
  have hl := good_lined hg
  unfold startPos
  by_cases hz : lo = E.ill
  · rw [if_pos hz]
    refine ⟨_, _, 0, rfl, ?_, by simp, by simp, by intro r _; simp [lower, hz]⟩
    cases hn : ix.tree.nodes with
    | nil =>
      refine Or.inl ⟨by rw [hg.chain, hn]; rfl, ?_⟩
      unfold Tree.rows
      rw [hn]
      rfl
    | cons n b =>
      refine Or.inr ⟨[], n, b, hn, by rw [hg.chain, hn]; rfl, List.length_pos_iff.2 (hl.ne n (by rw [hn]; simp)), rfl⟩
  · rw [if_neg hz]
    cases inc with
    | true =>
      rw [if_pos rfl]
      have hP : (fun r => lower E lo true r = true) = (fun r => E.cmp (E.key r) lo ≠ .lt) := by
        funext r
        simp [lower, hz]
      obtain ⟨a, n, b, bt, h1, ⟨e, f1, f2, f3⟩, h3⟩ := left_found hg lo
      have hn : n ∈ ix.tree.nodes := by rw [e]; simp
      rw [h1, hP]
      cases bt with
      | really =>
        obtain ⟨s, e1, e2, e3, e4⟩ := first_spec (hg.sok.vals hn) (max_mem (hg.sok.ok n hn) (h3 rfl))
        simp only [e1]
        exact ⟨_, _, _, rfl, Or.inr ⟨a, n, b, e, rfl, e2, rfl⟩, cut_of_split e f1 f2 (by omega) e3 e4⟩
      | deadLeft =>
        exact ⟨_, _, _, rfl, Or.inr ⟨a, n, b, e, rfl, List.length_pos_iff.2 (hl.ne n hn), rfl⟩,
          cut_of_split (s := 0) e f1 f2 (by omega) (by simp) (by simpa using f3)⟩
      | deadRight =>
        exact ⟨_, _, _, rfl, start_next hl e, cut_of_split e f1 f2 (Nat.le_refl _) (by simpa using f3) (by simp)⟩
    | false =>
      rw [if_neg (by simp)]
      have hP : (fun r => lower E lo false r = true) = (fun r => E.cmp (E.key r) lo = .gt) := by
        funext r
        simp [lower, hz]
      obtain ⟨a, n, b, bt, h1, ⟨e, f1, f2, f3⟩, h3⟩ := right_found hg lo
      have hn : n ∈ ix.tree.nodes := by rw [e]; simp
      rw [h1, hP]
      cases bt with
      | really =>
        obtain ⟨s, e1, e2, e3, e4⟩ := last_spec (hg.sok.vals hn) (min_mem (hg.sok.ok n hn) (h3 rfl))
        simp only [e1]
        by_cases hb : n.vals.length ≤ s + 1
        · rw [if_pos hb]
          have he : s + 1 = n.vals.length := by omega
          rw [he] at e3 e4
          exact ⟨_, _, _, rfl, start_next hl e, cut_of_split e f1 f2 (Nat.le_refl _) e3 e4⟩
        · rw [if_neg hb]
          exact ⟨_, _, _, rfl, Or.inr ⟨a, n, b, e, rfl, by omega, rfl⟩, cut_of_split e f1 f2 (by omega) e3 e4⟩
      | deadLeft =>
        exact ⟨_, _, _, rfl, Or.inr ⟨a, n, b, e, rfl, List.length_pos_iff.2 (hl.ne n hn), rfl⟩,
          cut_of_split (s := 0) e f1 f2 (by omega) (by simp) (by simpa using f3)⟩
      | deadRight =>
        exact ⟨_, _, _, rfl, start_next hl e, cut_of_split e f1 f2 (Nat.le_refl _) (by simpa using f3) (by simp)⟩

theorem endPos_spec {ix : Idx} (hg : Good E ix) (hi : Word) (inc : Bool) :
    ∃ o s k, endPos E ix hi inc = some (some (o, s)) ∧ EndAt ix o s k ∧ Cut ix.tree.rows (fun r => ¬ upper E hi inc r = true) k := by
  have hl := good_lined hg
  unfold endPos
  by_cases hz : hi = E.ill
  · rw [if_pos hz]
    rcases List.eq_nil_or_concat ix.tree.nodes with hn | ⟨a, n, hn⟩
    · have := hg.ne
      cases ht : ix.tree with
      | nil => rw [ht] at this; cases this
      | node n l r => rw [ht] at hn; simp [Tree.nodes] at hn
    · have e : ix.tree.nodes = a ++ n :: [] := by rw [hn]; simp
      have hc : ix.chain.getLast? = some n.id := by
        rw [hg.chain, e]
        simp
      rw [hc]
      simp only [lastSlot, hl.node e, Option.map_some]
      refine ⟨_, _, _, rfl, end_last hl e, ?_, ?_, ?_⟩
      · rw [rows_len e]; omega
      · intro r _
        simp [upper, hz]
      · rw [List.drop_of_length_le]
        · simp
        · rw [rows_len e, rowsOf_nil]
          simp
  · rw [if_neg hz]
    cases inc with
    | true =>
      rw [if_pos rfl]
      have hP : (fun r => ¬ upper E hi true r = true) = (fun r => E.cmp (E.key r) hi = .gt) := by
        funext r
        simp [upper, hz]
      obtain ⟨a, n, b, bt, h1, ⟨e, f1, f2, f3⟩, h3⟩ := right_found hg hi
      have hn : n ∈ ix.tree.nodes := by rw [e]; simp
      rw [h1, hP]
      cases bt with
      | really =>
        obtain ⟨s, e1, e2, e3, e4⟩ := last_spec (hg.sok.vals hn) (min_mem (hg.sok.ok n hn) (h3 rfl))
        simp only [e1]
        exact ⟨_, _, _, rfl, Or.inr ⟨a, n, b, s, e, rfl, rfl, e2, rfl⟩, cut_of_split e f1 f2 (by omega) e3 e4⟩
      | deadLeft =>
        obtain ⟨o, s, e1, e2⟩ := end_prev hl e
        simp only [e1]
        exact ⟨_, _, _, rfl, e2, cut_of_split (s := 0) e f1 f2 (by omega) (by simp) (by simpa using f3)⟩
      | deadRight =>
        exact ⟨_, _, _, rfl, end_last hl e, cut_of_split e f1 f2 (Nat.le_refl _) (by simpa using f3) (by simp)⟩
    | false =>
      rw [if_neg (by simp)]
      have hP : (fun r => ¬ upper E hi false r = true) = (fun r => E.cmp (E.key r) hi ≠ .lt) := by
        funext r
        simp [upper, hz]
      obtain ⟨a, n, b, bt, h1, ⟨e, f1, f2, f3⟩, h3⟩ := left_found hg hi
      have hn : n ∈ ix.tree.nodes := by rw [e]; simp
      rw [h1, hP]
      cases bt with
      | really =>
        obtain ⟨s, e1, e2, e3, e4⟩ := first_spec (hg.sok.vals hn) (max_mem (hg.sok.ok n hn) (h3 rfl))
        cases s with
        | zero =>
          simp only [e1]
          obtain ⟨o, s, d1, d2⟩ := end_prev hl e
          simp only [d1]
          exact ⟨_, _, _, rfl, d2, cut_of_split (s := 0) e f1 f2 (by omega) (by simp) (by simpa using e4)⟩
        | succ s =>
          simp only [e1]
          exact ⟨_, _, _, rfl, Or.inr ⟨a, n, b, s, e, rfl, rfl, by omega, rfl⟩, cut_of_split e f1 f2 (by omega) e3 e4⟩
      | deadLeft =>
        obtain ⟨o, s, e1, e2⟩ := end_prev hl e
        simp only [e1]
        exact ⟨_, _, _, rfl, e2, cut_of_split (s := 0) e f1 f2 (by omega) (by simp) (by simpa using f3)⟩
      | deadRight =>
        exact ⟨_, _, _, rfl, end_last hl e, cut_of_split e f1 f2 (Nat.le_refl _) (by simpa using f3) (by simp)⟩

end

/-! ### The rows between the bounds -/

/-- the rows the cursor goes through -/
def Runs (ix : Idx) : Cursor → List Row → Prop
  | c, [] => stepT ix c = some none
  | c, r :: l => ∃ c', stepT ix c = some (some (r, c')) ∧ Runs ix c' l

theorem pos_runs {ix : Idx} (h : Lined ix) : ∀ (d : Nat) {c : Cursor} {k t : Nat}, Pos ix c k t → t = k + d →
    Runs ix c ((ix.tree.rows.drop k).take d)
  | 0, c, k, t, hp, e => by
    rcases hp with ⟨hc, _⟩ | ⟨hlt, _⟩
    · exact stepT_none hc
    · omega
  | d + 1, c, k, t, hp, e => by
    obtain ⟨r, c', h1, h2, h3⟩ := stepT_spec h hp (by omega)
    obtain ⟨hk, hr⟩ := List.getElem?_eq_some_iff.1 h2
    rw [List.drop_eq_getElem_cons hk, List.take_succ_cons, hr]
    exact ⟨c', h1, pos_runs h d h3 (by omega)⟩

theorem cut_filter {rows : List Row} {p q : Row → Bool} {s t : Nat} (h1 : Cut rows (fun r => p r = true) s)
    (h2 : Cut rows (fun r => ¬ q r = true) t) (hst : s ≤ t) :
    (rows.drop s).take (t - s) = rows.filter fun r => p r && q r := by
  obtain ⟨a1, a2, a3⟩ := h1
  obtain ⟨b1, b2, b3⟩ := h2
  have e : rows = rows.take s ++ ((rows.drop s).take (t - s) ++ rows.drop t) := by
    conv => lhs; rw [← List.take_append_drop s rows, ← List.take_append_drop (t - s) (rows.drop s)]
    rw [List.drop_drop]
    congr 3
    omega
  have hm : ∀ r ∈ (rows.drop s).take (t - s), r ∈ rows.drop s ∧ r ∈ rows.take t := by
    intro r hr
    refine ⟨List.mem_of_mem_take hr, ?_⟩
    have : (rows.drop s).take (t - s) = (rows.take t).drop s := by rw [List.drop_take]
    rw [this] at hr
    exact List.mem_of_mem_drop hr
  conv => rhs; rw [e]
  rw [List.filter_append, List.filter_append, List.filter_eq_nil_iff.2, List.filter_eq_self.2, List.filter_eq_nil_iff.2]
  · simp
  · intro r hr
    have := b3 r hr
    simp only [Bool.and_eq_true]
    exact fun hc => this hc.2
  · intro r hr
    obtain ⟨m1, m2⟩ := hm r hr
    simp only [Bool.and_eq_true]
    exact ⟨a3 r m1, by simpa using b2 r m2⟩
  · intro r hr
    simp only [Bool.and_eq_true]
    exact fun hc => a2 r hr hc.1

theorem cut_le {rows : List Row} {p q : Row → Bool} {s t : Nat} (h1 : Cut rows (fun r => p r = true) s)
    (h2 : Cut rows (fun r => ¬ q r = true) t) (h : ∀ r ∈ rows, p r = true ∨ q r = true) : s ≤ t := by
  obtain ⟨a1, a2, a3⟩ := h1
  obtain ⟨b1, b2, b3⟩ := h2
  by_cases hc : s ≤ t
  · exact hc
  · have ht : t < rows.length := by omega
    have m1 : rows[t] ∈ rows.take s := List.mem_take_iff_getElem.2 ⟨t, by omega, rfl⟩
    have m2 : rows[t] ∈ rows.drop t := List.mem_drop_iff_getElem.2 ⟨0, by simpa using ht, by simp⟩
    rcases h _ (List.getElem_mem ht) with h | h
    · exact absurd h (a2 _ m1)
    · exact absurd h (b3 _ m2)

theorem runs_none {ix : Idx} {c : Cursor} (h : c.cur = none) : Runs ix c [] := stepT_none h

/-- the bounds are found, and the cursor goes through the rows between them -/
theorem findBounds_spec {E : Env} (hE : E.Ok) {ix : Idx} (hix : Good E ix ∨ Blank E ix) {lo hi : Word} {loInc hiInc : Bool}
    (hlo : lo = E.ill ∨ E.cmp lo E.ill = .gt) (hhi : hi = E.ill ∨ E.cmp hi E.ill = .gt)
    (hpr : ∀ r ∈ ix.tree.rows, lower E lo loInc r = true ∨ upper E hi hiInc r = true) :
    ∃ c, findBounds E ix lo hi loInc hiInc = some (some c) ∧
      Runs ix c (ix.tree.rows.filter fun r => lower E lo loInc r && upper E hi hiInc r) := by
  haveI := hE.trans
  rcases hix with hg | ⟨id, rfl⟩
  · obtain ⟨o, s, k, e1, e2, e3⟩ := startPos_spec hg lo loInc
    obtain ⟨o', s', k', d1, d2, d3⟩ := endPos_spec hg hi hiInc
    have hst := cut_le e3 d3 hpr
    have hl := good_lined hg
    refine ⟨settle ix ⟨o, s, o', s'⟩, by unfold findBounds; rw [e1, d1], ?_⟩
    rw [← cut_filter e3 d3 hst]
    exact pos_runs hl _ (settle_pos hl (c := ⟨o, s, o', s'⟩) e2 d2 hst) (by omega)
  · have hrows : (empty E id).tree.rows = [] := rfl
    rw [hrows]
    have hgt : ∀ v, E.cmp v E.ill = .gt → E.cmp v E.ill ≠ .lt := by
      intro v hv; rw [hv]; decide
    have hs : ∀ v inc, v ≠ E.ill → E.cmp v E.ill = .gt → startPos E (empty E id) v inc = some (some (none, 0)) := by
      intro v inc h1 h2
      unfold startPos
      rw [if_neg h1]
      cases inc <;> simp [leftmost, rightmost, empty, h2, Tree.isNil, nodeAt, Tree.get, nextIn]
    have he : ∀ v inc, (v = E.ill ∨ E.cmp v E.ill = .gt) → endPos E (empty E id) v inc = some (some (some id, -1)) := by
      intro v inc h
      unfold endPos
      by_cases h1 : v = E.ill
      · rw [if_pos h1]
        simp [empty, lastSlot, nodeOf, Tree.nodes]
      · rw [if_neg h1]
        have h2 := h.resolve_left h1
        cases inc <;> simp [leftmost, rightmost, empty, h2, Tree.isNil, nodeAt, Tree.get]
    unfold findBounds
    rw [he hi hiInc hhi]
    by_cases h1 : lo = E.ill
    · have : startPos E (empty E id) lo loInc = some (some (some id, 0)) := by
        unfold startPos
        rw [if_pos h1]
        rfl
      rw [this]
      exact ⟨_, rfl, runs_none (by simp [settle])⟩
    · rw [hs lo loInc h1 (hlo.resolve_left h1)]
      exact ⟨_, rfl, runs_none (by simp [settle])⟩

theorem rowCount_eq (ix : Idx) : rowCount ix = ix.tree.rows.length := by
  unfold rowCount Tree.rows rowsOf
  rw [List.length_flatMap]

/-! ### Fetching -/

/-- the rows a query gives, one after another, and then no more -/
def Gives (d : Db) : Query → List Row → Prop
  | q, [] => ∃ q', d.fetch q = some (none, q')
  | q, r :: l => ∃ q', d.fetch q = some (some r, q') ∧ Gives d q' l

theorem fetchT_spec {d : Db} {ix : Idx} {args : List Arg} : ∀ {l : List Row} {c : Cursor} {fuel : Nat}, Runs ix c l → l.length < fuel →
    match l.dropWhile (fun r => !d.check args r) with
    | [] => ∃ c', fetchT d ix args fuel c = some (none, c')
    | r :: l' => ∃ c', fetchT d ix args fuel c = some (some r, c') ∧ Runs ix c' l'
  | [], c, 0, _, hf => by simp at hf
  | [], c, fuel + 1, h, _ => by
    have h : stepT ix c = some none := h
    exact ⟨c, by unfold fetchT; rw [h]⟩
  | r :: l, c, 0, _, hf => by simp at hf
  | r :: l, c, fuel + 1, ⟨c', h1, h2⟩, hf => by
    unfold fetchT
    rw [h1]
    simp only []
    by_cases hc : d.check args r
    · rw [List.dropWhile_cons_of_neg (by simp [hc]), if_pos hc]
      exact ⟨c', rfl, h2⟩
    · rw [List.dropWhile_cons_of_pos (by simp [hc]), if_neg hc]
      exact fetchT_spec h2 (by simp only [List.length_cons] at hf; omega)

theorem filter_dropWhile {p : Row → Bool} : ∀ l : List Row, l.filter p = (l.dropWhile fun r => !p r).filter p
  | [] => rfl
  | r :: l => by
    by_cases h : p r
    · rw [List.dropWhile_cons_of_neg (by simp [h])]
    · rw [List.dropWhile_cons_of_pos (by simp [h]), List.filter_cons_of_neg (by simp [h])]
      exact filter_dropWhile l

theorem dropWhile_len {p : Row → Bool} : ∀ l : List Row, (l.dropWhile p).length ≤ l.length
  | [] => Nat.le_refl _
  | r :: l => by
    rw [List.dropWhile_cons]
    split
    · exact Nat.le_succ_of_le (dropWhile_len l)
    · exact Nat.le_refl _

theorem dropWhile_head {p : Row → Bool} : ∀ {l l' : List Row} {r : Row}, l.dropWhile p = r :: l' → p r = false
  | [], _, _, h => by cases h
  | x :: l, l', r, h => by
    rw [List.dropWhile_cons] at h
    split at h
    · exact dropWhile_head h
    · rename_i hx
      cases h
      simpa using hx

theorem runs_gives {d : Db} {ix : Idx} {args : List Arg} : ∀ (n : Nat) {l : List Row} {c : Cursor}, l.length = n → Runs ix c l →
    l.length ≤ rowCount ix → Gives d (.ttree ix c args) (l.filter (d.check args)) := by
  intro n
  induction n using Nat.strongRecOn with
  | _ n ih =>
    intro l c hn hr hle
    have h := fetchT_spec (d := d) (args := args) (fuel := rowCount ix + 1) hr (by omega)
    rw [filter_dropWhile]
    have hlen := dropWhile_len (p := fun r => !d.check args r) l
    cases he : l.dropWhile (fun r => !d.check args r) with
    | nil =>
      rw [he] at h
      obtain ⟨c', h⟩ := h
      exact ⟨.ttree ix c' args, by simp only [Db.fetch, h, Option.map_some]⟩
    | cons r l' =>
      rw [he] at h hlen
      obtain ⟨c', h1, h2⟩ := h
      have hc : d.check args r = true := by simpa using dropWhile_head he
      rw [List.filter_cons_of_pos hc]
      simp only [List.length_cons] at hlen
      exact ⟨_, by simp only [Db.fetch, h1, Option.map_some], ih l'.length (by omega) rfl h2 (by omega)⟩

theorem fetchS_spec {d : Db} {args : List Arg} : ∀ l : List Row,
    fetchS d args l = ((l.dropWhile fun r => !d.check args r).head?, (l.dropWhile fun r => !d.check args r).tail)
  | [] => rfl
  | r :: l => by
    unfold fetchS
    by_cases hc : d.check args r
    · rw [List.dropWhile_cons_of_neg (by simp [hc]), if_pos hc]
      rfl
    · rw [List.dropWhile_cons_of_pos (by simp [hc]), if_neg hc]
      exact fetchS_spec l

theorem scan_gives {d : Db} {args : List Arg} : ∀ (n : Nat) {l : List Row}, l.length = n →
    Gives d (.scan l args) (l.filter (d.check args)) := by
  intro n
  induction n using Nat.strongRecOn with
  | _ n ih =>
    intro l hn
    rw [filter_dropWhile]
    have hlen := dropWhile_len (p := fun r => !d.check args r) l
    have hf := fetchS_spec (d := d) (args := args) l
    cases he : l.dropWhile (fun r => !d.check args r) with
    | nil =>
      rw [he] at hf
      exact ⟨_, by simp only [Db.fetch, hf]; rfl⟩
    | cons r l' =>
      rw [he] at hf hlen
      have hc : d.check args r = true := by simpa using dropWhile_head he
      rw [List.filter_cons_of_pos hc]
      simp only [List.length_cons] at hlen
      exact ⟨.scan l' args, by simp only [Db.fetch, hf]; rfl, ih l'.length (by omega) rfl⟩

/-! ### Pages -/

/-- all pages but the last are full, the last is not empty -/
def Filled : List (List Row) → Prop
  | [] => True
  | [p] => 0 < p.length ∧ p.length ≤ pageSize
  | p :: q :: ps => p.length = pageSize ∧ Filled (q :: ps)

theorem addRow_one {r : Row} {p : List Row} : addRow [p] r = if p.length ≥ pageSize then [p, [r]] else [p ++ [r]] := by
  simp [addRow]

theorem addRow_cons {r : Row} {p q : List Row} {ps : List (List Row)} : addRow (p :: q :: ps) r = p :: addRow (q :: ps) r := by
  unfold addRow
  rw [List.getLast?_cons_cons]
  cases h : (q :: ps).getLast? with
  | none => simp at h
  | some x =>
    simp only []
    split <;> simp

theorem addRow_filled {r : Row} : ∀ {ps : List (List Row)}, Filled ps → Filled (addRow ps r) ∧ (addRow ps r).flatten = ps.flatten ++ [r]
  | [], _ => by simp [addRow, Filled, pageSize]
  | [p], h => by
    rw [addRow_one]
    obtain ⟨h1, h2⟩ := h
    split
    · refine ⟨⟨by omega, by simp [Filled, pageSize]⟩, by simp⟩
    · exact ⟨⟨by simp, by simp only [List.length_append, List.length_singleton]; omega⟩, by simp⟩
  | p :: q :: ps, h => by
    rw [addRow_cons]
    obtain ⟨h1, h2⟩ := addRow_filled (r := r) h.2
    refine ⟨?_, by rw [List.flatten_cons, h2]; simp⟩
    cases he : addRow (q :: ps) r with
    | nil =>
      rw [he] at h2
      simp at h2
    | cons x xs =>
      rw [he] at h1
      exact ⟨h.1, h1⟩

/-- the rows that are taken: all, or the first ones up to the limit -/
def limited (limit : Nat) (l : List Row) : List Row := if limit = 0 then l else l.take limit

theorem gather_spec {d : Db} {limit : Nat} : ∀ {l : List Row} {q : Query} {fuel : Nat} {ps : List (List Row)} {n : Nat}, Gives d q l →
    l.length < fuel → Filled ps → ps.flatten.length = n → (limit = 0 ∨ n < limit) →
    ∃ ps' m, d.gather limit fuel q ps n = some (.pages ps' 0 m) ∧ Filled ps' ∧ ps'.flatten = ps.flatten ++ limited (limit - n) l ∧
      m = ps'.flatten.length
  | [], q, 0, _, _, _, hf, _, _, _ => by simp at hf
  | _ :: _, q, 0, _, _, _, hf, _, _, _ => by simp at hf
  | [], q, fuel + 1, ps, n, ⟨q', h⟩, _, h2, h3, _ => by
    unfold Db.gather
    rw [h]
    exact ⟨_, _, rfl, h2, by simp [limited], h3.symm⟩
  | r :: l, q, fuel + 1, ps, n, ⟨q', h, h1⟩, hf, h2, h3, h4 => by
    unfold Db.gather
    rw [h]
    simp only []
    obtain ⟨f1, f2⟩ := addRow_filled (r := r) h2
    by_cases hl : limit ≠ 0 ∧ n + 1 ≥ limit
    · rw [if_pos hl]
      refine ⟨_, _, rfl, f1, ?_, by rw [f2, List.length_append, h3]; rfl⟩
      have e : limit - n = 1 := by omega
      rw [f2, e]
      simp [limited]
    · rw [if_neg hl]
      have hlen : (addRow ps r).flatten.length = n + 1 := by rw [f2, List.length_append, h3]; rfl
      obtain ⟨ps', m, g1, g2, g3, g4⟩ := gather_spec (d := d) (limit := limit) h1 (fuel := fuel) (by simp only [List.length_cons] at hf; omega) f1 hlen (by omega)
      refine ⟨ps', m, g1, g2, ?_, g4⟩
      rw [g3, f2]
      simp only [limited]
      by_cases hz : limit = 0
      · subst hz
        simp
      · have e : limit - n = (limit - (n + 1)) + 1 := by omega
        rw [if_neg (by omega), if_neg (by omega), e, List.take_succ_cons]
        simp

/-- the results of the first `n` calls of wg_fetch -/
def calls (d : Db) : Nat → Query → Option (List (Option Row))
  | 0, _ => some []
  | n + 1, q => match d.fetch q with
    | none => none
    | some (r, q') => (calls d n q').map (r :: ·)

/-- the `n`-th call gives the `n`-th row, or NULL when there are no more -/
def Returns (d : Db) (q : Query) (l : List Row) : Prop := ∀ n, calls d n q = some ((List.range n).map fun i => l[i]?)

theorem range_shift {α : Type} (f : Nat → α) (n : Nat) : (List.range (n + 1)).map f = f 0 :: (List.range n).map fun i => f (i + 1) := by
  rw [List.range_succ_eq_map, List.map_cons, List.map_map]
  rfl

theorem returns_step {d : Db} {q q' : Query} {l : List Row} (h : d.fetch q = some (l.head?, q'))
    (h2 : ∀ n, calls d n q' = some ((List.range n).map fun i => l.tail[i]?)) : Returns d q l := by
  intro n
  cases n with
  | zero => rfl
  | succ n =>
    unfold calls
    rw [h]
    simp only []
    rw [h2, range_shift]
    simp only [Option.map_some, Option.some.injEq, List.cons.injEq, List.map_inj_left, List.mem_range]
    refine ⟨by rw [List.head?_eq_getElem?], fun i _ => by simp [List.getElem?_tail]⟩

theorem pages_none {d : Db} {i m : Nat} : Returns d (.pages [] i m) [] := by
  intro n
  induction n generalizing i with
  | zero => rfl
  | succ n ih =>
    unfold calls
    simp only [Db.fetch, fetchP]
    rw [ih, range_shift]
    simp

theorem pages_returns {d : Db} {m : Nat} : ∀ (n : Nat) {ps : List (List Row)} {i : Nat}, ps.flatten.length - i = n → Filled ps →
    (∀ r ∈ ps.flatten, r ≠ 0) → i < pageSize → Returns d (.pages ps i m) (ps.flatten.drop i) := by
  intro n
  induction n with
  | zero =>
    intro ps i hn hfl hz hi
    have he : ps.flatten.drop i = [] := List.drop_of_length_le (by omega)
    rw [he]
    cases ps with
    | nil => exact pages_none
    | cons p ps =>
      have hp : p.length ≤ i := by
        simp only [List.flatten_cons, List.length_append] at hn
        omega
      refine returns_step (q' := .pages [] (i + 1) m) ?_ pages_none
      simp only [Db.fetch, fetchP]
      have : p.getD i 0 = 0 := by
        rw [List.getD_eq_getElem?_getD, List.getElem?_eq_none hp]
        rfl
      rw [if_pos this]
      rfl
  | succ n ih =>
    intro ps i hn hfl hz hi
    cases ps with
    | nil => simp at hn
    | cons p ps =>
      have hp : i < p.length := by
        cases ps with
        | nil =>
          simp only [List.flatten_cons, List.flatten_nil, List.append_nil] at hn
          omega
        | cons q ps =>
          have := hfl.1
          omega
      have hple : p.length ≤ pageSize := by
        cases ps with
        | nil => exact hfl.2
        | cons q ps => exact Nat.le_of_eq hfl.1
      have hget : p.getD i 0 = p[i] := by
        rw [List.getD_eq_getElem?_getD, List.getElem?_eq_getElem hp]
        rfl
      have hne : p[i] ≠ 0 := hz _ (by rw [List.flatten_cons]; exact List.mem_append_left _ (List.getElem_mem hp))
      have hfi : i < (p :: ps).flatten.length := by
        rw [List.flatten_cons, List.length_append]
        omega
      have hd : (p :: ps).flatten.drop i = p[i] :: (p :: ps).flatten.drop (i + 1) := by
        rw [List.drop_eq_getElem_cons hfi]
        congr 1
        simp only [List.flatten_cons]
        rw [List.getElem_append_left hp]
      rw [hd]
      by_cases hlast : i + 1 ≥ pageSize
      · have hpl : p.length = i + 1 := by omega
        refine returns_step (q' := .pages ps 0 m) ?_ ?_
        · simp only [Db.fetch, fetchP]
          rw [hget, if_neg hne, if_pos hlast]
          rfl
        · have hps : (p :: ps).flatten.drop (i + 1) = ps.flatten.drop 0 := by
            rw [List.flatten_cons, ← hpl, List.drop_left']
            · rfl
            · rfl
          show Returns d (.pages ps 0 m) ((p :: ps).flatten.drop (i + 1))
          rw [hps]
          refine ih ?_ ?_ ?_ (by decide)
          · simp only [List.flatten_cons, List.length_append] at hn
            omega
          · cases ps with
            | nil => trivial
            | cons q ps => exact hfl.2
          · intro r hr
            exact hz r (by rw [List.flatten_cons]; exact List.mem_append_right _ hr)
      · refine returns_step (q' := .pages (p :: ps) (i + 1) m) ?_ ?_
        · simp only [Db.fetch, fetchP]
          rw [hget, if_neg hne, if_neg hlast]
          rfl
        · exact ih (by omega) hfl hz (by omega)

end Gkc.Query
