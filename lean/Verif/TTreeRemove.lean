import Verif.TTreeOps
/-
T-trees: removal.
-/
namespace Gkc.TTree
open Gkc.Compare (Word)
open Std

theorem split_mem (row : Row) : ∀ (vs : List Row), row ∈ vs → ∃ a b, vs = a ++ row :: b ∧ row ∉ a ∧ vs.idxOf row = a.length
  | [], h => by cases h
  | x :: xs, h => by
    by_cases hx : x = row
    · exact ⟨[], xs, by rw [hx]; rfl, by simp, by simp [hx]⟩
    · obtain ⟨a, b, e1, e2, e3⟩ := split_mem row xs ((List.mem_cons.1 h).resolve_left (fun e => hx e.symm))
      refine ⟨x :: a, b, by rw [e1]; rfl, by simp [e2, Ne.symm hx], ?_⟩
      have hx' : (x == row) = false := by simpa using hx
      rw [List.idxOf_cons]
      simp [hx', e3]

theorem eraseIdx_mid (row : Row) (b : List Row) : ∀ a : List Row, (a ++ row :: b).eraseIdx a.length = a ++ b
  | [] => rfl
  | x :: a => by
    show x :: (a ++ row :: b).eraseIdx a.length = x :: (a ++ b)
    rw [eraseIdx_mid row b a]

/-- a node without the row -/
theorem dropRow_spec {E : Env} {row : Row} {n : Node} (hn : NodeOk E n) (hr : row ∈ n.vals) :
    ∃ a b, n.vals = a ++ row :: b ∧ (dropRow E row n).vals = a ++ b ∧ (dropRow E row n).id = n.id ∧
      (dropRow E row n).lh = n.lh ∧ (dropRow E row n).rh = n.rh ∧ (a ++ b ≠ [] → NodeOk E (dropRow E row n)) := by
  obtain ⟨a, b, e1, e2, e3⟩ := split_mem row n.vals hr
  have hv : n.vals.eraseIdx (n.vals.idxOf row) = a ++ b := by rw [e3, e1, eraseIdx_mid]
  have hlen := hn.len
  rw [e1] at hlen
  simp only [List.length_append, List.length_cons] at hlen
  refine ⟨a, b, e1, ?_, ?_, ?_, ?_, ?_⟩
  · unfold dropRow
    simp only [hv]
    split
    · rfl
    · split <;> rfl
  · unfold dropRow
    simp only
    split
    · rfl
    · split <;> rfl
  · unfold dropRow
    simp only
    split
    · rfl
    · split <;> rfl
  · unfold dropRow
    simp only
    split
    · rfl
    · split <;> rfl
  · intro hne
    have hmn := hn.mn
    have hmx := hn.mx
    rw [e1] at hmn hmx
    unfold dropRow
    rw [e3] at hv
    simp only [e3, hv]
    have hl0 : (a ++ b).length ≠ 0 := fun h => hne (List.length_eq_zero_iff.1 h)
    by_cases h1 : a.length = (a ++ b).length ∧ (a ++ b).length ≠ 0
    · rw [if_pos h1]
      have hb : b = [] := by
        have := h1.1
        simp only [List.length_append] at this
        exact List.length_eq_zero_iff.1 (by omega)
      rw [hb, List.append_nil] at hne ⊢
      refine ⟨?_, ?_, by simp only; omega⟩
      · cases a with
        | nil => exact absurd rfl hne
        | cons x xs => simpa using hmn
      · simp only
        cases hl : a.getLast? with
        | none => exact absurd (List.getLast?_eq_none_iff.1 hl) hne
        | some z => rfl
    · rw [if_neg h1]
      have hb : b ≠ [] := by
        intro hb
        apply h1
        refine ⟨by rw [hb]; simp, hl0⟩
      have hmx' : (a ++ b).getLast?.map E.key = some n.mx := by
        rw [List.getLast?_append, List.getLast?_cons] at hmx
        rw [List.getLast?_append]
        cases hl : b.getLast? with
        | none => exact absurd (List.getLast?_eq_none_iff.1 hl) hb
        | some z =>
          rw [hl] at hmx
          simpa using hmx
      by_cases h2 : a.length = 0 ∧ (a ++ b).length ≠ 0
      · rw [if_pos h2]
        have ha : a = [] := List.length_eq_zero_iff.1 h2.1
        refine ⟨?_, hmx', by simp only [List.length_append]; omega⟩
        rw [ha]
        cases b with
        | nil => exact absurd rfl hb
        | cons x xs => rfl
      · rw [if_neg h2]
        refine ⟨?_, hmx', by simp only [List.length_append]; omega⟩
        cases a with
        | nil => exact absurd ⟨rfl, hl0⟩ h2
        | cons x xs => simpa using hmn

theorem bal_leaf {c : Node} {cl cr : Tree} (h : Bal (.node c cl cr)) (h1 : (Tree.node c cl cr).hgt ≤ 1) : c.lh = 0 ∧ c.rh = 0 ∧ cl = .nil ∧ cr = .nil := by
  obtain ⟨b1, b2, _⟩ := h
  rw [hgt_node] at h1
  refine ⟨by omega, by omega, hgt_nil (by omega), hgt_nil (by omega)⟩

theorem before_after_ne : ∀ {t : Tree} {p : Path} {s : Tree}, t.get p = some s → p ≠ [] → t.before p ++ t.after p ≠ []
  | _, [], _, _, h => absurd rfl h
  | .nil, _ :: _, _, h, _ => by simp [Tree.get] at h
  | .node n l r, d :: p, s, _, _ => by
    cases d <;> simp [Tree.before, Tree.after]

theorem isNil_of_nodes {t : Tree} (h : t.nodes ≠ []) : t.isNil = false := by
  cases t with
  | nil => exact absurd rfl h
  | node _ _ _ => rfl

theorem isNil_of_same {E : Env} {t : Tree} {ns : List Node} (h : Same E ns t.nodes) (hn : ns ≠ []) : t.isNil = false := by
  apply isNil_of_nodes
  intro hc
  have := h.ids
  rw [hc] at this
  simp only [List.map_nil] at this
  exact hn (List.map_eq_nil_iff.1 this.symm)

theorem erase_mid {x : Nat} {a b : List Nat} (h : (a ++ x :: b).Nodup) : (a ++ x :: b).erase x = a ++ b := by
  have : x ∉ a := fun hc => (List.nodup_append.1 h).2.2 x hc x (by simp) rfl
  rw [List.erase_append_right _ this]
  simp

section
variable {E : Env} [TransCmp E.cmp]

omit [TransCmp E.cmp] in
/-- a node that has lost a value -/
theorem afterLoss_spec {t : Tree} {chain : List Nat} {p : Path} {m : Node} {ml mr : Tree} (hp : t.get p = some (.node m ml mr))
    (hb : Bal t) (hc : chain = t.nodes.map Node.id) (hnd : chain.Nodup)
    (ho1 : ∀ n ∈ t.before p ++ ml.nodes, NodeOk E n) (ho2 : ∀ n ∈ mr.nodes ++ t.after p, NodeOk E n)
    (hm : m.vals ≠ [] → NodeOk E m) (hm0 : m.vals = [] → ml.isNil = true ∨ mr.isNil = true) (hs : Srt E t.rows) :
    ∃ ix', afterLoss E t chain p = some (ix', 0) ∧ (Good E ix' ∨ Blank E ix') ∧ ix'.tree.rows = t.rows := by
  have hnodes := nodes_get hp
  have hne : t.isNil = false := isNil_of_nodes (by rw [hnodes]; simp [Tree.nodes])
  have hgood : m.vals ≠ [] → Good E ⟨t, chain⟩ := by
    intro hv
    refine ⟨hne, ⟨?_, hs⟩, hb, hc, hnd⟩
    intro n hn
    rw [hnodes] at hn
    simp only [Tree.nodes, List.mem_append, List.mem_cons] at hn
    rcases hn with hn | (hn | hn | hn) | hn
    · exact ho1 n (by simp [hn])
    · exact ho1 n (by simp [hn])
    · rw [hn]; exact hm hv
    · exact ho2 n (by simp [hn])
    · exact ho2 n (by simp [hn])
  have hbm := bal_get hb hp
  obtain ⟨b1, b2, b3, b4, b5, b6⟩ := hbm
  unfold afterLoss
  rw [hp]
  cases ml with
  | nil =>
    cases mr with
    | nil =>
      simp only
      have h0 : m.lh = 0 ∧ m.rh = 0 := ⟨b1, b2⟩
      by_cases hv : m.vals = []
      · rw [if_pos (by simp [hv])]
        by_cases hpe : p = []
        · rw [if_pos (by simp [hpe])]
          subst hpe
          simp only [Tree.get] at hp
          cases hp
          refine ⟨_, rfl, Or.inr ⟨m.id, ?_⟩, ?_⟩
          · simp only [empty, hv, h0.1, h0.2]
          · simp [Tree.rows, Tree.nodes, rowsOf, hv]
        · rw [if_neg (by simp [hpe])]
          obtain ⟨t', e1, e2, e3, e4, e5⟩ := shrink_spec E .nil trivial p t _ hb hp (by simp [Tree.hgt]) (by
            rw [hgt_node]; simp [Tree.hgt, h0.1, h0.2])
          simp only [Tree.nodes, List.nil_append] at e5
          rw [e1]
          have hnd' := hnd
          rw [hc, hnodes] at hnd'
          simp only [Tree.nodes, List.nil_append, List.singleton_append, List.map_append, List.map_cons] at hnd'
          have hch : chain.erase m.id = (t.before p ++ t.after p).map Node.id := by
            rw [hc, hnodes]
            simp only [Tree.nodes, List.nil_append, List.singleton_append, List.map_append, List.map_cons]
            exact erase_mid hnd'
          have hrows : rowsOf (t.before p ++ t.after p) = t.rows := by
            unfold Tree.rows
            rw [hnodes]
            simp [Tree.nodes, rowsOf, hv]
          refine ⟨_, rfl, Or.inl ⟨isNil_of_same e5 (before_after_ne hp hpe), ⟨?_, ?_⟩, e2, ?_, ?_⟩, ?_⟩
          · refine e5.ok ?_
            intro n hn
            rcases List.mem_append.1 hn with hn | hn
            · exact ho1 n (by simp [hn])
            · exact ho2 n (by simp [hn])
          · rw [e5.rows, hrows]
            exact hs
          · simp only
            rw [e5.ids, hch]
          · simp only
            exact hnd.erase _
          · show rowsOf t'.nodes = t.rows
            rw [e5.rows, hrows]
      · rw [if_neg (by simp [hv])]
        exact ⟨_, rfl, Or.inl (hgood hv), rfl⟩
    | node c cl cr =>
      simp only
      have hl0 : m.lh = 0 := b1
      obtain ⟨c1, c2, rfl, rfl⟩ := bal_leaf b6 (by omega)
      rw [if_neg (by simp [c1, c2])]
      have hco : NodeOk E c := ho2 c (by simp [Tree.nodes])
      by_cases hfit : m.vals.length + c.vals.length ≤ cap
      · rw [if_pos hfit]
        obtain ⟨t', e1, e2, e3, e4, e5⟩ := shrink_spec E (.node (mergeRight m c) .nil .nil)
          (by simp [Bal, mergeRight, Tree.hgt, hl0]) p t _ hb hp
          (by simp [hgt_node, mergeRight, hl0]) (by simp only [hgt_node, mergeRight, hl0] at b2 ⊢; simp only [c1, c2] at b2; omega)
        rw [e1]
        have hnd' := hnd
        rw [hc, hnodes] at hnd'
        have hids : (t.nodes).map Node.id = ((t.before p).map Node.id ++ [m.id]) ++ c.id :: (t.after p).map Node.id := by
          rw [hnodes]
          simp [Tree.nodes]
        have hch : chain.erase c.id = (t.before p ++ ((Tree.node (mergeRight m c) .nil .nil).nodes ++ t.after p)).map Node.id := by
          rw [hc, hids, erase_mid (by rw [← hids, ← hc]; exact hnd)]
          simp [Tree.nodes, mergeRight]
        have hrows : rowsOf (t.before p ++ ((Tree.node (mergeRight m c) .nil .nil).nodes ++ t.after p)) = t.rows := by
          unfold Tree.rows
          rw [hnodes]
          simp [Tree.nodes, rowsOf, mergeRight]
        have hmo : NodeOk E (mergeRight m c) := by
          refine ⟨?_, ?_, by simpa [mergeRight] using hfit⟩
          · by_cases hv : m.vals = []
            · simpa [mergeRight, hv] using hco.mn
            · obtain ⟨x, xs, q1, q2⟩ := (hm hv).head
              simp [mergeRight, q1, q2]
          · obtain ⟨xs, x, q1, q2⟩ := hco.last
            simp only [mergeRight, q1]
            rw [← List.append_assoc, List.getLast?_append]
            simp [q2]
        refine ⟨_, rfl, Or.inl ⟨isNil_of_same e5 (by simp [Tree.nodes]), ⟨?_, ?_⟩, e2, ?_, ?_⟩, ?_⟩
        · refine e5.ok ?_
          intro n hn
          simp only [Tree.nodes, List.nil_append, List.mem_append, List.mem_singleton] at hn
          rcases hn with hn | hn | hn
          · exact ho1 n (by simp [hn])
          · rw [hn]; exact hmo
          · exact ho2 n (by simp [hn])
        · rw [e5.rows, hrows]
          exact hs
        · simp only
          rw [e5.ids, hch]
        · simp only
          exact hnd.erase _
        · show rowsOf t'.nodes = t.rows
          rw [e5.rows, hrows]
      · rw [if_neg hfit]
        refine ⟨_, rfl, Or.inl (hgood ?_), rfl⟩
        intro hv
        have := hco.len
        rw [hv] at hfit
        simp only [List.length_nil] at hfit
        omega
  | node c cl cr =>
    cases mr with
    | nil =>
      simp only
      have hr0 : m.rh = 0 := b2
      obtain ⟨c1, c2, rfl, rfl⟩ := bal_leaf b5 (by omega)
      rw [if_neg (by simp [c1, c2])]
      have hco : NodeOk E c := ho1 c (by simp [Tree.nodes])
      by_cases hfit : m.vals.length + c.vals.length ≤ cap
      · rw [if_pos hfit]
        obtain ⟨t', e1, e2, e3, e4, e5⟩ := shrink_spec E (.node (mergeLeft m c) .nil .nil)
          (by simp [Bal, mergeLeft, Tree.hgt, hr0]) p t _ hb hp
          (by simp [hgt_node, mergeLeft, hr0]) (by simp only [hgt_node, mergeLeft, hr0] at b1 ⊢; simp only [c1, c2] at b1; omega)
        rw [e1]
        have hids : (t.nodes).map Node.id = (t.before p).map Node.id ++ c.id :: (m.id :: (t.after p).map Node.id) := by
          rw [hnodes]
          simp [Tree.nodes]
        have hch : chain.erase c.id = (t.before p ++ ((Tree.node (mergeLeft m c) .nil .nil).nodes ++ t.after p)).map Node.id := by
          rw [hc, hids, erase_mid (by rw [← hids, ← hc]; exact hnd)]
          simp [Tree.nodes, mergeLeft]
        have hrows : rowsOf (t.before p ++ ((Tree.node (mergeLeft m c) .nil .nil).nodes ++ t.after p)) = t.rows := by
          unfold Tree.rows
          rw [hnodes]
          simp [Tree.nodes, rowsOf, mergeLeft]
        have hmo : NodeOk E (mergeLeft m c) := by
          refine ⟨?_, ?_, by simp only [mergeLeft, List.length_append]; omega⟩
          · obtain ⟨x, xs, q1, q2⟩ := hco.head
            simp [mergeLeft, q1, q2]
          · by_cases hv : m.vals = []
            · simpa [mergeLeft, hv] using hco.mx
            · obtain ⟨xs, x, q1, q2⟩ := (hm hv).last
              simp only [mergeLeft]
              rw [q1, ← List.append_assoc, List.getLast?_append]
              simp [q2]
        refine ⟨_, rfl, Or.inl ⟨isNil_of_same e5 (by simp [Tree.nodes]), ⟨?_, ?_⟩, e2, ?_, ?_⟩, ?_⟩
        · refine e5.ok ?_
          intro n hn
          simp only [Tree.nodes, List.nil_append, List.mem_append, List.mem_singleton] at hn
          rcases hn with hn | hn | hn
          · exact ho1 n (by simp [hn])
          · rw [hn]; exact hmo
          · exact ho2 n (by simp [hn])
        · rw [e5.rows, hrows]
          exact hs
        · simp only
          rw [e5.ids, hch]
        · simp only
          exact hnd.erase _
        · show rowsOf t'.nodes = t.rows
          rw [e5.rows, hrows]
      · rw [if_neg hfit]
        refine ⟨_, rfl, Or.inl (hgood ?_), rfl⟩
        intro hv
        have := hco.len
        rw [hv] at hfit
        simp only [List.length_nil] at hfit
        omega
    | node d dl dr =>
      refine ⟨_, rfl, Or.inl (hgood ?_), rfl⟩
      intro hv
      rcases hm0 hv with h | h <;> cases h

omit [TransCmp E.cmp] in
theorem removeAt_spec {ix : Idx} (hg : Good E ix) {p : Path} {n : Node} {l r : Tree} {row : Row} (hp : ix.tree.get p = some (.node n l r))
    (hr : row ∈ n.vals) :
    ∃ ix', removeAt E ix row p = some (ix', 0) ∧ (Good E ix' ∨ Blank E ix') ∧ Added row ix'.tree.rows ix.tree.rows := by
  have hnodes := nodes_get hp
  have hsok := hg.sok
  rw [hnodes] at hsok
  have hn : NodeOk E n := hsok.ok n (by simp [Tree.nodes])
  obtain ⟨a, b, d1, d2, d3, d4, d5, d6⟩ := dropRow_spec hn hr
  generalize hn1 : dropRow E row n = n1 at *
  have hlen1 : n1.vals.length ≤ 7 := by
    have := hn.len
    rw [d1] at this
    rw [d2]
    simp only [List.length_append, List.length_cons, cap] at this ⊢
    omega
  have hoB : ∀ x ∈ ix.tree.before p, NodeOk E x := fun x hx => hsok.ok x (by simp [hx])
  have hoA : ∀ x ∈ ix.tree.after p, NodeOk E x := fun x hx => hsok.ok x (by simp [hx])
  have hol : ∀ x ∈ l.nodes, NodeOk E x := fun x hx => hsok.ok x (by simp [Tree.nodes, hx])
  have hor : ∀ x ∈ r.nodes, NodeOk E x := fun x hx => hsok.ok x (by simp [Tree.nodes, hx])
  have hrows : ix.tree.rows = (rowsOf (ix.tree.before p ++ l.nodes) ++ a) ++ row :: (b ++ rowsOf (r.nodes ++ ix.tree.after p)) := by
    unfold Tree.rows
    rw [hnodes]
    simp [Tree.nodes, rowsOf, d1]
  have hs0 : Srt E ((rowsOf (ix.tree.before p ++ l.nodes) ++ a) ++ (b ++ rowsOf (r.nodes ++ ix.tree.after p))) := by
    have := hg.sok.srt
    change Srt E ix.tree.rows at this
    rw [hrows] at this
    exact this.sublist ((List.Sublist.refl _).append (List.sublist_cons_self _ _))
  have hadd : ∀ rs, rs = (rowsOf (ix.tree.before p ++ l.nodes) ++ a) ++ (b ++ rowsOf (r.nodes ++ ix.tree.after p)) →
      Added row rs ix.tree.rows := fun rs e => ⟨_, _, e, hrows⟩
  have hbn := bal_get hg.bal hp
  have hbn' := hbn
  obtain ⟨w1, w2, w3, w4, w5, w6⟩ := hbn'
  unfold removeAt
  rw [hp]
  simp only [hn1]
  by_cases hbo : n1.vals.length < 5 ∧ ¬ l.isNil = true ∧ ¬ r.isNil = true
  · rw [if_pos hbo]
    have hlN : l.isNil = false := by simpa using hbo.2.1
    obtain ⟨g, gl, k1, k2, k3⟩ := get_lastPath l hlN
    rw [k1]
    simp only
    have hgo : NodeOk E g := hol g (by rw [k3]; simp)
    obtain ⟨zs, z, z1, z2⟩ := hgo.last
    have hbg : Bal (.node g gl .nil) := bal_get w5 k1
    have hl' := nodes_put (Tree.node (lend E g) gl .nil) k1
    have hlb := before_put (Tree.node (lend E g) gl .nil) k1
    have hla := after_put (Tree.node (lend E g) gl .nil) k1
    have hlg := get_put (Tree.node (lend E g) gl .nil) k1
    have hlbal := bal_put w5 k1 (s' := .node (lend E g) gl .nil) (by simpa only [Bal, lend] using hbg) rfl
    generalize l.put l.lastPath (Tree.node (lend E g) gl .nil) = l' at *
    rw [k2] at hl' hla
    have hl'' : l'.nodes = (l.before l.lastPath ++ gl.nodes) ++ [lend E g] := by
      rw [hl']; simp [Tree.nodes]
    have hlv : (lend E g).vals = zs := by simp [lend, z1]
    have hbv : (borrow n1 g).vals = z :: n1.vals := by simp [borrow, z1]
    have hbor : NodeOk E (borrow n1 g) := by
      refine ⟨?_, ?_, ?_⟩
      · rw [hbv]
        simp [borrow, z2]
      · rw [hbv]
        by_cases hv : n1.vals = []
        · simp [borrow, hv, z2]
        · obtain ⟨xs, x, q1, q2⟩ := (d6 (by rw [← d2]; exact hv)).last
          rw [q1, ← List.cons_append, List.getLast?_append]
          simp [borrow, q2, hv]
      · rw [hbv]
        simp only [List.length_cons, cap]
        omega
    have hput := bal_put hg.bal hp (s' := .node (borrow n1 g) l' r)
      (by
        simp only [Bal, borrow, d4, d5, hlbal.2]
        exact ⟨w1, w2, w3, w4, hlbal.1, w6⟩) (by simp only [hgt_node, borrow, d4, d5])
    have hgp : (ix.tree.put p (.node (borrow n1 g) l' r)).get (p ++ false :: l.lastPath) = some (.node (lend E g) gl .nil) := by
      rw [get_append _ (get_put _ hp)]
      simpa [Tree.get] using hlg
    have hbq : (ix.tree.put p (.node (borrow n1 g) l' r)).before (p ++ false :: l.lastPath) = ix.tree.before p ++ l.before l.lastPath := by
      rw [before_append _ (get_put _ hp), before_put _ hp]
      simp [Tree.before, hlb]
    have haq : (ix.tree.put p (.node (borrow n1 g) l' r)).after (p ++ false :: l.lastPath) = borrow n1 g :: (r.nodes ++ ix.tree.after p) := by
      rw [after_append _ (get_put _ hp), after_put _ hp]
      simp [Tree.after, hla]
    have hnp := nodes_put (Tree.node (borrow n1 g) l' r) hp
    have hrp : (ix.tree.put p (.node (borrow n1 g) l' r)).rows =
        (rowsOf (ix.tree.before p ++ l.nodes) ++ a) ++ (b ++ rowsOf (r.nodes ++ ix.tree.after p)) := by
      unfold Tree.rows
      rw [hnp, k3]
      simp [Tree.nodes, hl'', rowsOf, hlv, hbv, z1, d2]
    obtain ⟨ix', q1, q2, q3⟩ := afterLoss_spec (E := E) (chain := ix.chain) hgp hput.1
      (by
        rw [hnp, hg.chain, hnodes]
        simp only [Tree.nodes, hl'', k3]
        simp [lend, borrow, d3]) hg.nodup
      (by
        intro x hx
        rw [hbq] at hx
        simp only [List.mem_append] at hx
        rcases hx with (hx | hx) | hx
        · exact hoB x hx
        · exact hol x (by rw [k3]; simp [hx])
        · exact hol x (by rw [k3]; simp [hx]))
      (by
        intro x hx
        rw [haq] at hx
        simp only [Tree.nodes, List.nil_append, List.mem_append, List.mem_cons] at hx
        rcases hx with hx | hx | hx
        · rw [hx]; exact hbor
        · exact hor x hx
        · exact hoA x hx)
      (by
        intro hv
        rw [hlv] at hv
        refine ⟨?_, ?_, ?_⟩
        · have := hgo.mn
          rw [z1] at this
          rw [hlv]
          cases zs with
          | nil => exact absurd rfl hv
          | cons y ys => simpa [lend] using this
        · rw [hlv]
          cases hl : zs.getLast? with
          | none => exact absurd (List.getLast?_eq_none_iff.1 hl) hv
          | some y => simp [lend, z1, hl]
        · have := hgo.len
          rw [z1] at this
          rw [hlv]
          simp only [List.length_append, List.length_cons] at this
          omega)
      (fun _ => Or.inr rfl) (by rw [hrp]; exact hs0)
    exact ⟨ix', q1, q2, hadd _ (by rw [q3, hrp])⟩
  · rw [if_neg hbo]
    have hput := bal_put hg.bal hp (s' := .node n1 l r)
      (by
        simp only [Bal, d4, d5]
        exact ⟨w1, w2, w3, w4, w5, w6⟩) (by simp only [hgt_node, d4, d5])
    have hnp := nodes_put (Tree.node n1 l r) hp
    have hrp : (ix.tree.put p (.node n1 l r)).rows =
        (rowsOf (ix.tree.before p ++ l.nodes) ++ a) ++ (b ++ rowsOf (r.nodes ++ ix.tree.after p)) := by
      unfold Tree.rows
      rw [hnp]
      simp [Tree.nodes, rowsOf, d2]
    obtain ⟨ix', q1, q2, q3⟩ := afterLoss_spec (E := E) (chain := ix.chain) (get_put (.node n1 l r) hp) hput.1
      (by
        rw [hnp, hg.chain, hnodes]
        simp [Tree.nodes, d3]) hg.nodup
      (by
        intro x hx
        rw [before_put _ hp] at hx
        rcases List.mem_append.1 hx with hx | hx
        · exact hoB x hx
        · exact hol x hx)
      (by
        intro x hx
        rw [after_put _ hp] at hx
        rcases List.mem_append.1 hx with hx | hx
        · exact hor x hx
        · exact hoA x hx)
      (fun hv => d6 (by rw [← d2]; exact hv))
      (by
        intro hv
        cases hlN : l.isNil with
        | true => exact Or.inl rfl
        | false => cases hrN : r.isNil with
          | true => exact Or.inr rfl
          | false => exact absurd ⟨by rw [hv]; simp, by simp [hlN], by simp [hrN]⟩ hbo)
      (by rw [hrp]; exact hs0)
    exact ⟨ix', q1, q2, hadd _ (by rw [q3, hrp])⟩

/-! ### The way to the node -/

theorem pathOf_none : ∀ (t : Tree) (i : Nat), i ∉ t.nodes.map Node.id → t.pathOf i = none
  | .nil, _, _ => rfl
  | .node n l r, i, h => by
    simp only [Tree.nodes, List.map_append, List.map_cons, List.mem_append, List.mem_cons, not_or] at h
    simp only [Tree.pathOf]
    rw [if_neg (fun e => h.2.1 e.symm), pathOf_none l i h.1, pathOf_none r i h.2.2]
    rfl

theorem pathOf_spec : ∀ (t : Tree) (m : Node), (t.nodes.map Node.id).Nodup → m ∈ t.nodes →
    ∃ q l r, t.pathOf m.id = some q ∧ t.get q = some (.node m l r)
  | .nil, _, _, h => by cases h
  | .node n l r, m, hnd, h => by
    simp only [Tree.nodes, List.map_append, List.map_cons] at hnd h
    obtain ⟨n1, n2, n3⟩ := List.nodup_append.1 hnd
    have n4 := List.nodup_cons.1 n2
    simp only [Tree.pathOf]
    rcases List.mem_append.1 h with h | h
    · have hid : m.id ∈ l.nodes.map Node.id := List.mem_map_of_mem h
      rw [if_neg (fun e => n3 m.id hid n.id (by simp) e.symm)]
      obtain ⟨q, a, b, e1, e2⟩ := pathOf_spec l m n1 h
      rw [e1]
      exact ⟨_, a, b, rfl, by simpa [Tree.get] using e2⟩
    · rcases List.mem_cons.1 h with rfl | h
      · rw [if_pos rfl]
        exact ⟨[], l, r, rfl, rfl⟩
      · have hid : m.id ∈ r.nodes.map Node.id := List.mem_map_of_mem h
        rw [if_neg (fun e : n.id = m.id => n4.1 (e ▸ hid)), pathOf_none l m.id (fun hc => n3 m.id hc m.id (by simp [hid]) rfl)]
        obtain ⟨q, a, b, e1, e2⟩ := pathOf_spec r m n4.2 h
        rw [e1]
        exact ⟨_, a, b, rfl, by simpa [Tree.get] using e2⟩

theorem find_id : ∀ (ns : List Node) (m : Node), (ns.map Node.id).Nodup → m ∈ ns → ns.find? (·.id = m.id) = some m
  | [], _, _, h => by cases h
  | n :: ns, m, hnd, h => by
    simp only [List.map_cons] at hnd
    have h1 := List.nodup_cons.1 hnd
    rcases List.mem_cons.1 h with rfl | h
    · simp
    · have hid : m.id ∈ ns.map Node.id := List.mem_map_of_mem h
      rw [List.find?_cons_of_neg (by simp; intro e; exact h1.1 (e ▸ hid))]
      exact find_id ns m h1.2 h

theorem filterMap_find (ns : List Node) (hnd : (ns.map Node.id).Nodup) : ∀ (ms : List Node), (∀ m ∈ ms, m ∈ ns) →
    (ms.map Node.id).filterMap (fun i => ns.find? (·.id = i)) = ms
  | [], _ => rfl
  | m :: ms, h => by
    rw [List.map_cons, List.filterMap_cons, find_id ns m hnd (h m (by simp))]
    simp only
    rw [filterMap_find ns hnd ms (fun x hx => h x (List.mem_cons_of_mem _ hx))]

theorem dropWhile_id (x : Nat) (b : List Nat) : ∀ a : List Nat, x ∉ a → (a ++ x :: b).dropWhile (· ≠ x) = x :: b
  | [], _ => by simp
  | y :: a, h => by
    simp only [List.mem_cons, not_or] at h
    rw [List.cons_append, List.dropWhile_cons, if_pos (by simpa using Ne.symm h.1)]
    exact dropWhile_id x b a h.2

omit [TransCmp E.cmp] in
/-- along the chain from a node -/
theorem from_spec {ix : Idx} (hg : Good E ix) {a b : List Node} {n : Node} (h : ix.tree.nodes = a ++ n :: b) :
    ix.from_ n.id = n :: b := by
  have hnd := hg.nodup
  rw [hg.chain] at hnd
  unfold Idx.from_
  have h1 : ix.chain.dropWhile (· ≠ n.id) = (n :: b).map Node.id := by
    rw [hg.chain, h]
    simp only [List.map_append, List.map_cons]
    refine dropWhile_id _ _ _ ?_
    intro hc
    rw [h] at hnd
    simp only [List.map_append, List.map_cons] at hnd
    exact (List.nodup_append.1 hnd).2.2 n.id hc n.id (by simp) rfl
  rw [h1]
  exact filterMap_find _ hnd _ (fun m hm => by rw [h]; exact List.mem_append_right _ hm)

omit [TransCmp E.cmp] in
theorem scan_some {row : Row} {key : Word} : ∀ {ns : List Node} {m : Node}, scan E row key ns = some m → m ∈ ns ∧ row ∈ m.vals
  | [], _, h => by cases h
  | n :: ns, m, h => by
    simp only [scan] at h
    by_cases hr : row ∈ n.vals
    · rw [if_pos hr] at h
      cases h
      exact ⟨by simp, hr⟩
    · rw [if_neg hr] at h
      cases ns with
      | nil => cases h
      | cons x xs =>
        simp only at h
        by_cases hx : E.cmp x.mn key = .gt
        · rw [if_pos hx] at h
          cases h
        · rw [if_neg hx] at h
          obtain ⟨h1, h2⟩ := scan_some h
          exact ⟨List.mem_cons_of_mem _ h1, h2⟩

theorem scan_none {row : Row} : ∀ {ns : List Node}, SOk E ns → scan E row (E.key row) ns = none → ∀ m ∈ ns, row ∉ m.vals
  | [], _, _, m, hm => by cases hm
  | n :: ns, hs, h, m, hm => by
    simp only [scan] at h
    by_cases hr : row ∈ n.vals
    · rw [if_pos hr] at h
      cases h
    · rw [if_neg hr] at h
      have hs' : SOk E ns := SOk.right (a := [n]) hs
      cases ns with
      | nil =>
        cases List.mem_singleton.1 hm
        exact hr
      | cons x xs =>
        simp only at h
        rcases List.mem_cons.1 hm with rfl | hm
        · exact hr
        · by_cases hx : E.cmp x.mn (E.key row) = .gt
          · intro hc
            have hlt : E.lt (E.key row) x.mn := (gt_iff _ _).1 hx
            have hxm : E.le x.mn m.mn := by
              rcases List.mem_cons.1 hm with rfl | hm'
              · exact le_refl _
              · exact le_trans (hs'.mnmx (by simp)) ((List.pairwise_cons.1 hs'.pw).1 m hm')
            have := (node_between (hs'.ok m hm) (hs'.vals hm) hc).1
            exact lt_irrefl _ (lt_of_lt_of_le hlt (le_trans hxm this))
          · rw [if_neg hx] at h
            exact scan_none hs' h m hm

/-- what a removal does -/
theorem remove_good {ix : Idx} (hg : Good E ix) (row : Row) :
    (row ∈ ix.tree.rows → ∃ ix', remove E ix row = some (ix', 0) ∧ (Good E ix' ∨ Blank E ix') ∧ Added row ix'.tree.rows ix.tree.rows) ∧
    (row ∉ ix.tree.rows → ∃ c, remove E ix row = some (ix, c) ∧ c < 0) := by
  obtain ⟨f, h1, h2⟩ := leftmost_spec (E := E) (E.key row) ix.tree none hg.ne hg.sok (by simp)
  cases f with
  | back =>
    obtain ⟨⟨x, hx, _⟩, _⟩ := h2
    cases hx
  | at_ p b =>
    obtain ⟨⟨n, l, r, hp, hspec⟩, -⟩ := h2
    have hnodes := nodes_get hp
    have e0 : ix.tree.before p ++ ((Tree.node n l r).nodes ++ ix.tree.after p) =
        (ix.tree.before p ++ l.nodes) ++ n :: (r.nodes ++ ix.tree.after p) := by
      simp [Tree.nodes]
    rw [e0] at hnodes
    have hsok := hg.sok
    rw [hnodes] at hsok
    have hpw := List.pairwise_append.1 hsok.pw
    have hPn : ∀ m ∈ ix.tree.before p ++ l.nodes, E.le m.mx n.mn := fun m hm => hpw.2.2 m hm n (by simp)
    have hnQ : ∀ m ∈ r.nodes ++ ix.tree.after p, E.le n.mx m.mn := fun m hm => (List.pairwise_cons.1 hpw.2.1).1 m hm
    have hn : NodeOk E n := hsok.ok n (by simp)
    have hsn : Srt E n.vals := hsok.vals (by simp)
    have hless : ∀ m ∈ ix.tree.nodes, E.lt m.mx (E.key row) → row ∉ m.vals := by
      intro m hm hlt hc
      exact lt_irrefl _ (lt_of_le_of_lt (node_between (hg.sok.ok m hm) (hg.sok.vals hm) hc).2 hlt)
    have hmore : ∀ m ∈ ix.tree.nodes, E.lt (E.key row) m.mn → row ∉ m.vals := by
      intro m hm hlt hc
      exact lt_irrefl _ (lt_of_lt_of_le hlt (node_between (hg.sok.ok m hm) (hg.sok.vals hm) hc).1)
    have hout : (∀ m ∈ ix.tree.nodes, E.lt m.mx (E.key row) ∨ E.lt (E.key row) m.mn) → row ∉ ix.tree.rows := by
      intro h hc
      obtain ⟨m, hm, hv⟩ := List.mem_flatMap.1 hc
      rcases h m hm with h | h
      · exact hless m hm h hv
      · exact hmore m hm h hv
    unfold remove
    simp only [h1, hp]
    cases b with
    | really =>
      simp only at hspec
      obtain ⟨c1, c2, c3⟩ := hspec
      rw [if_neg (by simp), from_spec hg hnodes]
      have hs2 : SOk E (n :: (r.nodes ++ ix.tree.after p)) := hsok.right
      cases hsc : scan E row (E.key row) (n :: (r.nodes ++ ix.tree.after p)) with
      | none =>
        simp only
        have hno : row ∉ ix.tree.rows := by
          intro hc
          obtain ⟨m, hm, hv⟩ := List.mem_flatMap.1 hc
          have hm' := hm
          rw [hnodes] at hm'
          rcases List.mem_append.1 hm' with hm' | hm'
          · exact hless m hm (c3 m hm') hv
          · exact scan_none hs2 hsc m hm' hv
        exact ⟨fun h => absurd h hno, fun _ => ⟨-3, rfl, by decide⟩⟩
      | some m =>
        simp only
        obtain ⟨hm1, hm2⟩ := scan_some hsc
        have hm : m ∈ ix.tree.nodes := by
          rw [hnodes]
          exact List.mem_append_right _ hm1
        have hnd := hg.nodup
        rw [hg.chain] at hnd
        obtain ⟨q, ql, qr, q1, q2⟩ := pathOf_spec ix.tree m hnd hm
        rw [q1]
        have hin : row ∈ ix.tree.rows := List.mem_flatMap.2 ⟨m, hm, hm2⟩
        exact ⟨fun _ => removeAt_spec hg q2 hm2, fun h => absurd hin h⟩
    | deadLeft =>
      simp only at hspec
      obtain ⟨rfl, c2, c3, c4⟩ := hspec
      rw [if_pos (by decide)]
      have hno : row ∉ ix.tree.rows := by
        apply hout
        intro m hm
        rw [hnodes] at hm
        simp only [Tree.nodes, List.append_nil] at hm
        rcases List.mem_append.1 hm with hm | hm
        · exact Or.inl (c4 m hm)
        · rcases List.mem_cons.1 hm with rfl | hm
          · exact Or.inr c2
          · exact Or.inr (lt_of_lt_of_le c2 (le_trans (mn_le_mx hn hsn) (hnQ m hm)))
      exact ⟨fun h => absurd h hno, fun _ => ⟨-2, rfl, by decide⟩⟩
    | deadRight =>
      simp only at hspec
      obtain ⟨rfl, c2, c3⟩ := hspec
      rw [if_pos (by decide)]
      have hno : row ∉ ix.tree.rows := by
        apply hout
        intro m hm
        rw [hnodes] at hm
        simp only [Tree.nodes, List.nil_append] at hm
        rcases List.mem_append.1 hm with hm | hm
        · exact Or.inl (lt_of_le_of_lt (le_trans (hPn m hm) (mn_le_mx hn hsn)) c2)
        · rcases List.mem_cons.1 hm with rfl | hm
          · exact Or.inl c2
          · exact Or.inr (c3 m hm)
      exact ⟨fun h => absurd h hno, fun _ => ⟨-2, rfl, by decide⟩⟩

omit [TransCmp E.cmp] in
theorem remove_blank (h : E.Ok) {ix : Idx} (hb : Blank E ix) (row : Row) : remove E ix row = some (ix, -2) := by
  obtain ⟨id, rfl⟩ := hb
  simp [remove, empty, leftmost, h.ill row, Tree.isNil]

end

end Gkc.TTree
