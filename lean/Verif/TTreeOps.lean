import Verif.TTreeLemmas
/-
T-trees: insertion and removal.
-/
namespace Gkc.TTree
open Gkc.Compare (Word)
open Std

/-! ### The loops over the parents -/

theorem hgt_node (n : Node) (l r : Tree) : (Tree.node n l r).hgt = max n.lh n.rh + 1 := rfl

theorem bal_put : ∀ {t : Tree} {p : Path} {s s' : Tree}, Bal t → t.get p = some s → Bal s' → s'.hgt = s.hgt →
    Bal (t.put p s') ∧ (t.put p s').hgt = t.hgt
  | t, [], s, s', _, h, b, hh => by
    simp only [Tree.get] at h
    cases h
    cases t <;> exact ⟨b, hh⟩
  | .nil, _ :: _, _, _, _, h, _, _ => by simp [Tree.get] at h
  | .node n l r, d :: p, s, s', ⟨b1, b2, b3, b4, b5, b6⟩, h, b, hh => by
    cases d
    · simp only [Tree.get, Bool.false_eq_true, if_false] at h
      obtain ⟨c1, c2⟩ := bal_put b5 h b hh
      simp only [Tree.put, Bool.false_eq_true, if_false, Bal, c2]
      exact ⟨⟨b1, b2, b3, b4, c1, b6⟩, rfl⟩
    · simp only [Tree.get, if_true] at h
      obtain ⟨c1, c2⟩ := bal_put b6 h b hh
      simp only [Tree.put, if_true, Bal, c2]
      exact ⟨⟨b1, b2, b3, b4, b5, c1⟩, rfl⟩

theorem bal_get : ∀ {t : Tree} {p : Path} {s : Tree}, Bal t → t.get p = some s → Bal s
  | t, [], s, b, h => by
    simp only [Tree.get] at h
    cases h
    exact b
  | .nil, _ :: _, _, _, h => by simp [Tree.get] at h
  | .node n l r, d :: p, s, ⟨_, _, _, _, b5, b6⟩, h => by
    cases d
    · simp only [Tree.get, Bool.false_eq_true, if_false] at h
      exact bal_get b5 h
    · simp only [Tree.get, if_true] at h
      exact bal_get b6 h

/-- what `grow` tells the parent -/
def GrowOk (h : Nat) (t' : Tree) : Grow → Prop
  | .grew => t'.hgt = h + 1 ∧ (t'.leans ∨ h = 0)
  | _ => t'.hgt = h

theorem growUp_left (E : Env) (n : Node) (l' r : Tree) (h : Nat) (g : Grow) (b1 : n.lh = h) (b2 : n.rh = r.hgt)
    (b3 : n.lh ≤ n.rh + 1) (b4 : n.rh ≤ n.lh + 1) (bl : Bal l') (br : Bal r) (hg : GrowOk h l' g) :
    ∃ t' g', growUp E n false l' r g = some (t', g') ∧ Bal t' ∧ GrowOk (max n.lh n.rh + 1) t' g' ∧
      Same E (l'.nodes ++ n :: r.nodes) t'.nodes := by
  cases g with
  | stop =>
    simp only [GrowOk] at hg
    exact ⟨_, _, rfl, ⟨by omega, b2, b3, b4, bl, br⟩, rfl, Same.refl E _⟩
  | rotated =>
    simp only [GrowOk] at hg
    refine ⟨_, _, rfl, ⟨rfl, b2, ?_, ?_, bl, br⟩, ?_, ?_⟩
    · simp only [Bool.false_eq_true, if_false]; omega
    · simp only [Bool.false_eq_true, if_false]; omega
    · simp only [GrowOk, hgt_node, Bool.false_eq_true, if_false]; omega
    · exact (Same.refl E _).append ((Same.hts E n _ _).cons (Same.refl E _))
  | grew =>
    simp only [GrowOk] at hg
    obtain ⟨hg, hlean⟩ := hg
    simp only [growUp, Bool.false_eq_true, if_false]
    have hs : Same E (l'.nodes ++ n :: r.nodes) (Tree.node { n with lh := n.lh + 1 } l' r).nodes :=
      (Same.refl E _).append ((Same.hts E n _ _).cons (Same.refl E _))
    by_cases h1 : n.lh + 1 = n.rh
    · rw [if_pos h1]
      refine ⟨_, _, rfl, ⟨?_, b2, ?_, ?_, bl, br⟩, ?_, hs⟩
      · simp only; omega
      · simp only; omega
      · simp only; omega
      · simp only [GrowOk, Tree.hgt]; omega
    · rw [if_neg h1]
      by_cases h2 : n.lh + 1 > n.rh + 1
      · rw [if_pos (by simp [Node.uneven]; omega)]
        obtain ⟨t', e1, e2, e3, e4, e5, e6⟩ := rotate_left E { n with lh := n.lh + 1 } l' r (by simp only; omega) b2 bl br
          (by simp only; omega)
        rw [e1]
        refine ⟨t', .rotated, rfl, e2, ?_, hs.trans e3⟩
        have := e6 (hlean.resolve_right (by omega))
        simp only [GrowOk] at *
        omega
      · rw [if_neg (by simp [Node.uneven]; omega)]
        refine ⟨_, _, rfl, ⟨?_, b2, ?_, ?_, bl, br⟩, ?_, hs⟩
        · simp only; omega
        · simp only; omega
        · simp only; omega
        · simp only [GrowOk, Tree.hgt, Tree.leans]
          refine ⟨?_, Or.inl h1⟩
          omega

theorem growUp_right (E : Env) (n : Node) (l r' : Tree) (h : Nat) (g : Grow) (b1 : n.lh = l.hgt) (b2 : n.rh = h)
    (b3 : n.lh ≤ n.rh + 1) (b4 : n.rh ≤ n.lh + 1) (bl : Bal l) (br : Bal r') (hg : GrowOk h r' g) :
    ∃ t' g', growUp E n true l r' g = some (t', g') ∧ Bal t' ∧ GrowOk (max n.lh n.rh + 1) t' g' ∧
      Same E (l.nodes ++ n :: r'.nodes) t'.nodes := by
  cases g with
  | stop =>
    simp only [GrowOk] at hg
    exact ⟨_, _, rfl, ⟨b1, by omega, b3, b4, bl, br⟩, rfl, Same.refl E _⟩
  | rotated =>
    simp only [GrowOk] at hg
    refine ⟨_, _, rfl, ⟨b1, rfl, ?_, ?_, bl, br⟩, ?_, ?_⟩
    · simp only [if_true]; omega
    · simp only [if_true]; omega
    · simp only [GrowOk, hgt_node, if_true]; omega
    · exact (Same.refl E _).append ((Same.hts E n _ _).cons (Same.refl E _))
  | grew =>
    simp only [GrowOk] at hg
    obtain ⟨hg, hlean⟩ := hg
    simp only [growUp, if_true]
    have hs : Same E (l.nodes ++ n :: r'.nodes) (Tree.node { n with rh := n.rh + 1 } l r').nodes :=
      (Same.refl E _).append ((Same.hts E n _ _).cons (Same.refl E _))
    by_cases h1 : n.lh = n.rh + 1
    · rw [if_pos h1]
      refine ⟨_, _, rfl, ⟨b1, ?_, ?_, ?_, bl, br⟩, ?_, hs⟩
      · simp only; omega
      · simp only; omega
      · simp only; omega
      · simp only [GrowOk, Tree.hgt]; omega
    · rw [if_neg h1]
      by_cases h2 : n.rh + 1 > n.lh + 1
      · rw [if_pos (by simp [Node.uneven]; omega)]
        obtain ⟨t', e1, e2, e3, e4, e5, e6⟩ := rotate_right E { n with rh := n.rh + 1 } l r' b1 (by simp only; omega) bl br
          (by simp only; omega)
        rw [e1]
        refine ⟨t', .rotated, rfl, e2, ?_, hs.trans e3⟩
        have := e6 (hlean.resolve_right (by omega))
        simp only [GrowOk] at *
        omega
      · rw [if_neg (by simp [Node.uneven]; omega)]
        refine ⟨_, _, rfl, ⟨b1, ?_, ?_, ?_, bl, br⟩, ?_, hs⟩
        · simp only; omega
        · simp only; omega
        · simp only; omega
        · simp only [GrowOk, Tree.hgt, Tree.leans]
          refine ⟨?_, Or.inl h1⟩
          omega

/-- a new leaf -/
theorem grow_spec (E : Env) (leaf : Node) (hl : leaf.lh = 0 ∧ leaf.rh = 0) : ∀ (p : Path) (t : Tree), Bal t → t.get p = some .nil →
    ∃ t' g, grow E leaf p t = some (t', g) ∧ Bal t' ∧ GrowOk t.hgt t' g ∧ Same E (t.before p ++ leaf :: t.after p) t'.nodes
  | [], t, _, h => by
    simp only [Tree.get] at h
    cases h
    refine ⟨_, _, rfl, ?_, ?_, ?_⟩
    · simp [Bal, Tree.hgt, hl.1, hl.2]
    · simp [GrowOk, Tree.hgt, hl.1, hl.2]
    · exact Same.refl E _
  | _ :: _, .nil, _, h => by simp [Tree.get] at h
  | d :: p, .node n l r, ⟨b1, b2, b3, b4, b5, b6⟩, h => by
    cases d
    · simp only [Tree.get, Bool.false_eq_true, if_false] at h
      obtain ⟨l', g, e1, e2, e3, e4⟩ := grow_spec E leaf hl p l b5 h
      obtain ⟨t', g', f1, f2, f3, f4⟩ := growUp_left E n l' r l.hgt g b1 b2 b3 b4 e2 b6 e3
      refine ⟨t', g', ?_, f2, f3, ?_⟩
      · simp only [grow, Bool.false_eq_true, if_false, e1, Option.bind_some]
        exact f1
      · simp only [Tree.before, Tree.after, Bool.false_eq_true, if_false]
        refine Same.trans ?_ f4
        have := e4.append (Same.refl E (n :: r.nodes))
        simpa only [List.append_assoc, List.cons_append] using this
    · simp only [Tree.get, if_true] at h
      obtain ⟨r', g, e1, e2, e3, e4⟩ := grow_spec E leaf hl p r b6 h
      obtain ⟨t', g', f1, f2, f3, f4⟩ := growUp_right E n l r' r.hgt g b1 b2 b3 b4 b5 e2 e3
      refine ⟨t', g', ?_, f2, f3, ?_⟩
      · simp only [grow, if_true, e1, Option.bind_some]
        exact f1
      · simp only [Tree.before, Tree.after, if_true]
        refine Same.trans ?_ f4
        have := (Same.refl E (l.nodes ++ [n])).append e4
        simpa only [List.append_assoc, List.cons_append, List.nil_append] using this

/-- one round of the loop after a removal -/
theorem settle_spec (E : Env) (n : Node) (l r : Tree) (b1 : n.lh = l.hgt) (b2 : n.rh = r.hgt)
    (b3 : n.lh ≤ n.rh + 2) (b4 : n.rh ≤ n.lh + 2) (bl : Bal l) (br : Bal r) :
    ∃ t', settle E (.node n l r) = some t' ∧ Bal t' ∧ Same E (l.nodes ++ n :: r.nodes) t'.nodes ∧
      ((n.lh ≤ n.rh + 1 ∧ n.rh ≤ n.lh + 1 ∧ t'.hgt = max n.lh n.rh + 1) ∨
       ((n.lh = n.rh + 2 ∨ n.rh = n.lh + 2) ∧ max n.lh n.rh ≤ t'.hgt ∧ t'.hgt ≤ max n.lh n.rh + 1)) := by
  simp only [settle]
  have key : ∀ t', Bal t' → (∃ k, k < t'.hgt) → rotate E (.node n l r) = some t' →
      (match rotate E (.node n l r) with
        | some (.node m ml mr) => if m.uneven then none else some (.node m ml mr)
        | _ => none) = some t' := by
    intro t' hb hk e
    rw [e]
    cases t' with
    | nil =>
      obtain ⟨k, hk⟩ := hk
      simp [Tree.hgt] at hk
    | node m ml mr =>
      obtain ⟨_, _, c3, c4, _, _⟩ := hb
      simp only
      rw [if_neg (by simp [Node.uneven]; omega)]
  by_cases h1 : n.lh > n.rh + 1
  · rw [if_pos (by simp [Node.uneven]; omega)]
    obtain ⟨t', e1, e2, e3, e4, e5, e6⟩ := rotate_left E n l r b1 b2 bl br (by omega)
    refine ⟨t', key t' e2 ⟨n.rh, by omega⟩ e1, e2, e3, Or.inr ⟨by omega, by omega, by omega⟩⟩
  · by_cases h2 : n.rh > n.lh + 1
    · rw [if_pos (by simp [Node.uneven]; omega)]
      obtain ⟨t', e1, e2, e3, e4, e5, e6⟩ := rotate_right E n l r b1 b2 bl br (by omega)
      refine ⟨t', key t' e2 ⟨n.lh, by omega⟩ e1, e2, e3, Or.inr ⟨by omega, by omega, by omega⟩⟩
    · rw [if_neg (by simp [Node.uneven]; omega)]
      exact ⟨_, rfl, ⟨b1, b2, by omega, by omega, bl, br⟩, Same.refl E _, Or.inl ⟨by omega, by omega, rfl⟩⟩

/-- a subtree becomes lower -/
theorem shrink_spec (E : Env) (s : Tree) (hs : Bal s) : ∀ (p : Path) (t : Tree) (u : Tree), Bal t → t.get p = some u →
    s.hgt ≤ u.hgt → u.hgt ≤ s.hgt + 1 →
    ∃ t', shrink E s p t = some t' ∧ Bal t' ∧ t'.hgt ≤ t.hgt ∧ t.hgt ≤ t'.hgt + 1 ∧
      Same E (t.before p ++ (s.nodes ++ t.after p)) t'.nodes
  | [], t, u, _, h, h1, h2 => by
    simp only [Tree.get] at h
    cases h
    refine ⟨s, rfl, hs, h1, h2, ?_⟩
    simp only [Tree.before, Tree.after, List.nil_append, List.append_nil]
    cases t <;> simpa [Tree.before, Tree.after] using Same.refl E _
  | _ :: _, .nil, _, _, h, _, _ => by simp [Tree.get] at h
  | d :: p, .node n l r, u, ⟨b1, b2, b3, b4, b5, b6⟩, h, h1, h2 => by
    cases d
    · simp only [Tree.get, Bool.false_eq_true, if_false] at h
      obtain ⟨l', e1, e2, e3, e4, e5⟩ := shrink_spec E s hs p l u b5 h h1 h2
      obtain ⟨t', f1, f2, f3, f4⟩ := settle_spec E { n with lh := l'.hgt } l' r rfl b2 (by simp only; omega) (by simp only; omega) e2 b6
      refine ⟨t', ?_, f2, ?_, ?_, ?_⟩
      · simp only [shrink, Bool.false_eq_true, if_false, e1, Option.bind_some]
        exact f1
      · simp only [hgt_node] at f4 ⊢; omega
      · simp only [hgt_node] at f4 ⊢; omega
      · simp only [Tree.before, Tree.after, Bool.false_eq_true, if_false]
        refine Same.trans ?_ f3
        have := e5.append ((Same.hts E n l'.hgt n.rh).cons (Same.refl E r.nodes))
        simpa only [List.append_assoc, List.cons_append] using this
    · simp only [Tree.get, if_true] at h
      obtain ⟨r', e1, e2, e3, e4, e5⟩ := shrink_spec E s hs p r u b6 h h1 h2
      obtain ⟨t', f1, f2, f3, f4⟩ := settle_spec E { n with rh := r'.hgt } l r' b1 rfl (by simp only; omega) (by simp only; omega) b5 e2
      refine ⟨t', ?_, f2, ?_, ?_, ?_⟩
      · simp only [shrink, if_true, e1, Option.bind_some]
        exact f1
      · simp only [hgt_node] at f4 ⊢; omega
      · simp only [hgt_node] at f4 ⊢; omega
      · simp only [Tree.before, Tree.after, if_true]
        refine Same.trans ?_ f3
        have := (Same.refl E l.nodes).append ((Same.hts E n n.lh r'.hgt).cons e5)
        simpa only [List.append_assoc, List.cons_append] using this

/-! ### The chain -/

theorem insBefore_eq (x new : Nat) : ∀ (a b : List Nat), x ∉ a → insBefore x new (a ++ x :: b) = a ++ new :: x :: b
  | [], b, _ => by simp [insBefore]
  | y :: a, b, h => by
    simp only [List.mem_cons, not_or] at h
    simp only [List.cons_append, insBefore]
    rw [if_neg (fun e => h.1 e.symm), insBefore_eq x new a b h.2]

theorem insAfter_eq (x new : Nat) : ∀ (a b : List Nat), x ∉ a → insAfter x new (a ++ x :: b) = a ++ x :: new :: b
  | [], b, _ => by simp [insAfter]
  | y :: a, b, h => by
    simp only [List.mem_cons, not_or] at h
    simp only [List.cons_append, insAfter]
    rw [if_neg (fun e => h.1 e.symm), insAfter_eq x new a b h.2]

/-! ### Values of a node -/

section
variable {E : Env} [TransCmp E.cmp]

theorem srt_ins {a b : List Row} {row : Row} (h : Srt E (a ++ b)) (ha : ∀ x ∈ a, E.le (E.key x) (E.key row))
    (hb : ∀ x ∈ b, E.le (E.key row) (E.key x)) : Srt E (a ++ row :: b) := by
  rw [srt_append] at h ⊢
  refine ⟨h.1, List.pairwise_cons.2 ⟨hb, h.2.1⟩, ?_⟩
  intro x hx y hy
  rcases List.mem_cons.1 hy with rfl | hy
  · exact ha x hx
  · exact h.2.2 x hx y hy

/-- where a row goes in a node with room -/
theorem insLow_split (row : Row) : ∀ (vs : List Row), Srt E vs →
    ∃ a b, vs = a ++ b ∧ insLow E (E.key row) row vs = a ++ row :: b ∧ (∀ x ∈ a, E.lt (E.key x) (E.key row)) ∧
      (∀ x ∈ b, E.le (E.key row) (E.key x)) ∧ (a = [] ↔ atFront E (E.key row) vs = true)
  | [], _ => ⟨[], [], rfl, rfl, by simp, by simp, by simp [atFront]⟩
  | x :: xs, hs => by
    have hs' := List.pairwise_cons.1 hs
    by_cases h : E.cmp (E.key x) (E.key row) = .lt
    · obtain ⟨a, b, e1, e2, e3, e4, _⟩ := insLow_split row xs hs'.2
      refine ⟨x :: a, b, by rw [e1]; rfl, ?_, ?_, e4, ?_⟩
      · simp only [insLow, if_pos h, e2, List.cons_append]
      · intro y hy
        rcases List.mem_cons.1 hy with rfl | hy
        · exact h
        · exact e3 y hy
      · simp [atFront, h]
    · refine ⟨[], x :: xs, rfl, ?_, by simp, ?_, ?_⟩
      · simp only [insLow, if_neg h, List.nil_append]
      · intro y hy
        rcases List.mem_cons.1 hy with rfl | hy
        · exact le_of_not_lt h
        · exact le_trans (le_of_not_lt h) (hs'.1 y hy)
      · simp [atFront, h]

/-- a node with room -/
theorem addRoom_spec (row : Row) (n : Node) (hn : NodeOk E n) (hs : Srt E n.vals) (hlen : n.vals.length < cap)
    (h2 : E.le (E.key row) n.mx) :
    ∃ a b, n.vals = a ++ b ∧ (addRoom E (E.key row) row n).vals = a ++ row :: b ∧
      (∀ x ∈ a, E.le (E.key x) (E.key row)) ∧ (∀ x ∈ b, E.le (E.key row) (E.key x)) ∧
      NodeOk E (addRoom E (E.key row) row n) := by
  obtain ⟨a, b, e1, e2, e3, e4, e5⟩ := insLow_split row n.vals hs
  refine ⟨a, b, e1, e2, fun x hx => le_of_lt (e3 x hx), e4, ?_⟩
  have hb : b ≠ [] := by
    intro hb
    obtain ⟨xs, x, f1, f2⟩ := hn.last
    have : x ∈ a := by
      rw [hb, List.append_nil] at e1
      rw [← e1, f1]
      simp
    have := e3 x this
    rw [f2] at this
    exact lt_irrefl _ (lt_of_le_of_lt h2 this)
  refine ⟨?_, ?_, ?_⟩
  · simp only [addRoom, e2]
    by_cases ha : a = []
    · rw [if_pos (e5.1 ha), ha]
      rfl
    · rw [if_neg (fun h => ha (e5.2 h))]
      have := hn.mn
      cases a with
      | nil => exact absurd rfl ha
      | cons y ys =>
        rw [e1] at this
        simpa using this
  · simp only [addRoom, e2]
    have := hn.mx
    rw [e1, List.getLast?_append] at this
    rw [List.getLast?_append, List.getLast?_cons]
    cases hbl : b.getLast? with
    | none => exact absurd (List.getLast?_eq_none_iff.1 hbl) hb
    | some z =>
      rw [hbl] at this
      simpa using this
  · simp only [addRoom, e2]
    rw [e1] at hlen
    simp only [List.length_append, List.length_cons] at hlen ⊢
    omega

theorem takeWhile_all {α : Type} (f : α → Bool) : ∀ (l : List α) (x : α), x ∈ l.takeWhile f → f x = true
  | [], _, h => by simp at h
  | y :: ys, x, h => by
    rw [List.takeWhile_cons] at h
    by_cases hy : f y = true
    · rw [if_pos hy] at h
      rcases List.mem_cons.1 h with rfl | h
      · exact hy
      · exact takeWhile_all f ys x h
    · rw [if_neg hy] at h
      simp at h

theorem dropWhile_head {α : Type} (f : α → Bool) : ∀ (l : List α) (x : α) (xs : List α), l.dropWhile f = x :: xs → f x = false
  | [], _, _, h => by simp at h
  | y :: ys, x, xs, h => by
    rw [List.dropWhile_cons] at h
    by_cases hy : f y = true
    · rw [if_pos hy] at h
      exact dropWhile_head f ys x xs h
    · rw [if_neg hy] at h
      cases h
      simpa using hy

/-- a full node -/
theorem addFull_spec (row : Row) (n : Node) (hn : NodeOk E n) (hs : Srt E n.vals) (hlen : ¬ n.vals.length < cap) :
    ∃ m lo hi, n.vals = m :: (lo ++ hi) ∧ E.key m = n.mn ∧ (addFull E (E.key row) row n).vals = lo ++ row :: hi ∧
      (∀ x ∈ lo, E.le (E.key x) (E.key row)) ∧ (∀ x ∈ hi, E.le (E.key row) (E.key x)) ∧
      NodeOk E (addFull E (E.key row) row n) := by
  obtain ⟨m, t, e1, e2⟩ := hn.head
  let f : Row → Bool := fun x => decide (E.cmp (E.key x) (E.key row) = .gt)
  have hsp : t = (t.reverse.dropWhile f).reverse ++ (t.reverse.takeWhile f).reverse := by
    rw [← List.reverse_append, List.takeWhile_append_dropWhile, List.reverse_reverse]
  have hlo : (highPart E (E.key row) n.vals).1 = (t.reverse.dropWhile f).reverse := by
    simp [highPart, e1, f]
  have hhi : (highPart E (E.key row) n.vals).2 = (t.reverse.takeWhile f).reverse := by
    simp [highPart, e1, f]
  have hst : Srt E t := by
    rw [e1] at hs
    exact (List.pairwise_cons.1 hs).2
  have hloA : ∀ x ∈ (t.reverse.dropWhile f).reverse, E.le (E.key x) (E.key row) := by
    intro x hx
    cases hd : t.reverse.dropWhile f with
    | nil => rw [hd] at hx; simp at hx
    | cons y ys =>
      have hy := dropWhile_head f _ _ _ hd
      simp only [f, decide_eq_false_iff_not] at hy
      have hsl : Srt E ((t.reverse.dropWhile f).reverse) := by
        rw [hsp] at hst
        exact (srt_append.1 hst).1
      rw [hd] at hx hsl
      rw [List.reverse_cons] at hx hsl
      rcases List.mem_append.1 hx with hx | hx
      · exact le_trans ((srt_append.1 hsl).2.2 x hx y (by simp)) hy
      · cases List.mem_singleton.1 hx
        exact hy
  have hhiA : ∀ x ∈ (t.reverse.takeWhile f).reverse, E.le (E.key row) (E.key x) := by
    intro x hx
    have := takeWhile_all f _ x (List.mem_reverse.1 hx)
    simp only [f, decide_eq_true_eq] at this
    exact le_of_lt ((gt_iff _ _).1 this)
  generalize hLO : (t.reverse.dropWhile f).reverse = lo at *
  generalize hHI : (t.reverse.takeWhile f).reverse = hi at *
  have hv : (addFull E (E.key row) row n).vals = lo ++ row :: hi := by
    unfold addFull
    simp only [hlo, hhi]
    split <;> rfl
  refine ⟨m, lo, hi, by rw [e1, hsp], e2, hv, hloA, hhiA, ?_⟩
  have hlen' : (lo ++ row :: hi).length ≤ cap := by
    have := hn.len
    rw [e1, hsp] at this
    simp only [List.length_append, List.length_cons] at this ⊢
    omega
  have hlen2 : 7 ≤ lo.length + hi.length := by
    rw [e1, hsp] at hlen
    simp only [List.length_append, List.length_cons, cap] at hlen
    omega
  have hmx := hn.mx
  rw [e1, hsp, ← List.cons_append, List.getLast?_append] at hmx
  refine ⟨?_, ?_, by rw [hv]; exact hlen'⟩
  · rw [hv]
    unfold addFull
    simp only [hlo, hhi]
    cases lo with
    | nil => rfl
    | cons y ys => rfl
  · rw [hv, List.getLast?_append, List.getLast?_cons]
    unfold addFull
    simp only [hlo, hhi]
    cases hh : hi.getLast? with
    | none =>
      have hnil := List.getLast?_eq_none_iff.1 hh
      cases lo with
      | nil => rw [hnil] at hlen2; simp at hlen2
      | cons y ys => simp [hnil]
    | some z =>
      rw [hh] at hmx
      have hne : hi ≠ [] := by
        intro hc
        rw [hc] at hh
        simp at hh
      cases lo with
      | nil => simpa using hmx
      | cons y ys =>
        simpa [hne] using hmx

/-! ### Insertion -/

/-- an index with rows -/
structure Good (E : Env) (ix : Idx) : Prop where
  ne : ix.tree.isNil = false
  sok : SOk E ix.tree.nodes
  bal : Bal ix.tree
  chain : ix.chain = ix.tree.nodes.map Node.id
  nodup : ix.chain.Nodup

/-- an index without rows -/
def Blank (E : Env) (ix : Idx) : Prop := ∃ id, ix = empty E id

theorem rows_le {ns : List Node} {v : Word} (h : SOk E ns) (hv : ∀ m ∈ ns, E.le m.mx v) : ∀ x ∈ rowsOf ns, E.le (E.key x) v := by
  intro x hx
  obtain ⟨m, hm, hx⟩ := List.mem_flatMap.1 hx
  exact le_trans (node_between (h.ok m hm) (h.vals hm) hx).2 (hv m hm)

theorem rows_ge {ns : List Node} {v : Word} (h : SOk E ns) (hv : ∀ m ∈ ns, E.le v m.mn) : ∀ x ∈ rowsOf ns, E.le v (E.key x) := by
  intro x hx
  obtain ⟨m, hm, hx⟩ := List.mem_flatMap.1 hx
  exact le_trans (hv m hm) (node_between (h.ok m hm) (h.vals hm) hx).1

omit [TransCmp E.cmp] in
theorem isNil_put {t : Tree} {p : Path} {n : Node} {l r : Tree} (h : t.isNil = false) : (t.put p (.node n l r)).isNil = false := by
  cases t with
  | nil => cases h
  | node m a b =>
    cases p with
    | nil => rfl
    | cons d p =>
      cases d <;> rfl

/-- a subtree is replaced by one of the same height with the same node numbers -/
theorem good_put {ix : Idx} {p : Path} {n n' : Node} {l l' r r' : Tree} (hg : Good E ix) (hp : ix.tree.get p = some (.node n l r))
    (hb : Bal (.node n' l' r')) (hh : (Tree.node n' l' r').hgt = (Tree.node n l r).hgt)
    (hids : (Tree.node n' l' r').nodes.map Node.id = (Tree.node n l r).nodes.map Node.id)
    (hs : SOk E (ix.tree.before p ++ ((Tree.node n' l' r').nodes ++ ix.tree.after p))) :
    Good E ⟨ix.tree.put p (.node n' l' r'), ix.chain⟩ := by
  have hn := nodes_put (Tree.node n' l' r') hp
  refine ⟨isNil_put hg.ne, by rw [hn]; exact hs, (bal_put hg.bal hp hb hh).1, ?_, hg.nodup⟩
  simp only
  rw [hn, hg.chain, nodes_get hp]
  simp only [List.map_append, hids]

theorem leaf_ok (id : Nat) (row : Row) : NodeOk E (leafNode id (E.key row) row) := ⟨rfl, rfl, by simp [leafNode, cap]⟩

omit [TransCmp E.cmp] in
theorem addLeaf_spec (ix : Idx) (id : Nat) (t : Tree) (q : Path) (row : Row) (ch : Nat → List Nat) (hb : Bal t)
    (hq : t.get q = some .nil) (hs : SOk E (t.before q ++ leafNode id (E.key row) row :: t.after q))
    (hc : ch id = (t.before q ++ leafNode id (E.key row) row :: t.after q).map Node.id) (hn : (ch id).Nodup) :
    ∃ ix', addLeaf E ix (some id) t q (E.key row) row ch = some (ix', true) ∧ Good E ix' ∧
      ix'.tree.rows = rowsOf (t.before q) ++ row :: rowsOf (t.after q) := by
  obtain ⟨t', g, e1, e2, e3, e4⟩ := grow_spec E (leafNode id (E.key row) row) ⟨rfl, rfl⟩ q t hb hq
  refine ⟨⟨t', ch id⟩, ?_, ⟨?_, hs.same e4, e2, ?_, hn⟩, ?_⟩
  · simp only [addLeaf, e1, Option.map_some]
  · have := e4.ids
    cases t' with
    | nil => simp [Tree.nodes] at this
    | node _ _ _ => rfl
  · simp only
    rw [e4.ids, hc]
  · simp only [Tree.rows, e4.rows, rowsOf_append, rowsOf_cons, leafNode, List.singleton_append]

/-- the rows with one more -/
def Added (row : Row) (rs rs' : List Row) : Prop := ∃ a b, rs = a ++ b ∧ rs' = a ++ row :: b

/-- one row in place of another -/
def Swapped (row : Row) (rs rs' : List Row) : Prop := ∃ a m b c, rs = a ++ m :: (b ++ c) ∧ rs' = a ++ (b ++ row :: c)

/-- what an insertion does -/
def Inserted (E : Env) (fresh : Option Nat) (ix : Idx) (row : Row) : Prop :=
  ∃ ix' ok, insert E fresh ix row = some (ix', ok) ∧ (fresh ≠ none → ok = true) ∧ Good E ix' ∧
    (ok = true → Added row ix.tree.rows ix'.tree.rows) ∧
    (ok = false → ix' = ix ∨ Swapped row ix.tree.rows ix'.tree.rows)

theorem insert_blank (h : E.Ok) (fresh : Option Nat) {ix : Idx} (hb : Blank E ix) (row : Row) : Inserted E fresh ix row := by
  obtain ⟨id, rfl⟩ := hb
  have hi := h.ill row
  have hr : rightmost E (E.key row) (empty E id).tree none = some (.at_ [] .deadRight) := by
    simp [empty, rightmost, hi, Tree.isNil]
  refine ⟨⟨.node ⟨id, E.key row, E.key row, [row], 0, 0⟩ .nil .nil, [id]⟩, true, ?_, fun _ => rfl, ?_, ?_, by simp⟩
  · simp only [insert, hr]
    simp [empty, Tree.get, Tree.put, cap]
  · refine ⟨rfl, ⟨?_, ?_⟩, ⟨rfl, rfl, by simp, by simp, trivial, trivial⟩, rfl, by simp⟩
    · intro n hn
      simp only [Tree.nodes, List.nil_append, List.mem_singleton] at hn
      subst hn
      exact leaf_ok id row
    · simp [Tree.nodes, rowsOf, Srt]
  · intro _
    exact ⟨[], [], by simp [empty, Tree.rows, Tree.nodes, rowsOf], by simp [Tree.rows, Tree.nodes, rowsOf]⟩

theorem insert_good (fresh : Option Nat) {ix : Idx} (hg : Good E ix) (row : Row)
    (hf : ∀ id, fresh = some id → id ∉ ix.chain) : Inserted E fresh ix row := by
  obtain ⟨f, h1, h2⟩ := rightmost_spec (E := E) (E.key row) ix.tree none hg.ne hg.sok (by simp)
  cases f with
  | back =>
    obtain ⟨⟨x, hx, _⟩, _⟩ := h2
    cases hx
  | at_ p b =>
    obtain ⟨⟨n, l, r, hp, hspec⟩, -⟩ := h2
    have hnodes := nodes_get hp
    have hsok := hg.sok
    rw [hnodes] at hsok
    have hbn : Bal (.node n l r) := bal_get hg.bal hp
    have hids := hg.chain
    have hnd := hg.nodup
    rw [hnodes] at hids
    -- parts
    generalize hB : ix.tree.before p = B at *
    generalize hA : ix.tree.after p = A at *
    have e0 : B ++ ((Tree.node n l r).nodes ++ A) = (B ++ l.nodes) ++ ([n] ++ (r.nodes ++ A)) := by
      simp [Tree.nodes]
    rw [e0] at hsok hids
    have sP : SOk E (B ++ l.nodes) := hsok.left
    have sQ : SOk E (r.nodes ++ A) := hsok.right.right
    have hn : NodeOk E n := hsok.ok n (by simp)
    have hsn : Srt E n.vals := hsok.vals (by simp)
    have hpw := hsok.pw
    have hpw' := List.pairwise_append.1 hpw
    have hPn : ∀ m ∈ B ++ l.nodes, E.le m.mx n.mn := fun m hm => hpw'.2.2 m hm n (by simp)
    have hnQ : ∀ m ∈ r.nodes ++ A, E.le n.mx m.mn := fun m hm => (List.pairwise_cons.1 hpw'.2.1).1 m hm
    have hrows : ix.tree.rows = rowsOf (B ++ l.nodes) ++ (n.vals ++ rowsOf (r.nodes ++ A)) := by
      unfold Tree.rows
      rw [hnodes, e0, rowsOf_append, rowsOf_append]
      simp [rowsOf]
    have hsrt := hg.sok.srt
    change Srt E ix.tree.rows at hsrt
    rw [hrows] at hsrt
    -- SOk of a changed list
    have hput : ∀ n' : Node, n'.id = n.id → n'.lh = n.lh → n'.rh = n.rh → NodeOk E n' →
        Srt E (rowsOf (B ++ l.nodes) ++ (n'.vals ++ rowsOf (r.nodes ++ A))) →
        Good E ⟨ix.tree.put p (.node n' l r), ix.chain⟩ ∧
        (ix.tree.put p (.node n' l r)).rows = rowsOf (B ++ l.nodes) ++ (n'.vals ++ rowsOf (r.nodes ++ A)) := by
      intro n' hi hl hr hok hs
      have e1 : B ++ ((Tree.node n' l r).nodes ++ A) = (B ++ l.nodes) ++ (n' :: (r.nodes ++ A)) := by
        simp [Tree.nodes]
      constructor
      · refine good_put hg hp ?_ ?_ ?_ ?_
        · simp only [Bal] at hbn ⊢
          rw [hl, hr]
          exact hbn
        · simp only [hgt_node, hl, hr]
        · simp [Tree.nodes, hi]
        · rw [hB, hA, e1]
          refine ⟨?_, by rw [rowsOf_append, rowsOf_cons]; exact hs⟩
          intro m hm
          rcases List.mem_append.1 hm with hm | hm
          · exact sP.ok m hm
          · rcases List.mem_cons.1 hm with rfl | hm
            · exact hok
            · exact sQ.ok m hm
      · unfold Tree.rows
        rw [nodes_put _ hp, hB, hA, e1, rowsOf_append, rowsOf_cons]
    have hnid : n.id ∉ (B ++ l.nodes).map Node.id := by
      rw [hids, List.map_append] at hnd
      intro hc
      exact (List.nodup_append.1 hnd).2.2 n.id hc n.id (by simp) rfl
    unfold Inserted insert
    simp only [h1, hp]
    cases b with
    | really =>
      simp only at hspec ⊢
      obtain ⟨c1, c2, c3⟩ := hspec
      have hlo : ∀ x ∈ rowsOf (B ++ l.nodes), E.le (E.key x) (E.key row) :=
        rows_le sP (fun m hm => le_trans (hPn m hm) c1)
      have hhi : ∀ x ∈ rowsOf (r.nodes ++ A), E.le (E.key row) (E.key x) :=
        rows_ge sQ (fun m hm => le_trans c2 (hnQ m hm))
      by_cases hlen : n.vals.length < cap
      · rw [if_pos hlen]
        obtain ⟨a, b, f1, f2, f3, f4, f5⟩ := addRoom_spec row n hn hsn hlen c2
        have hs' : Srt E ((rowsOf (B ++ l.nodes) ++ a) ++ row :: (b ++ rowsOf (r.nodes ++ A))) := by
          refine srt_ins ?_ ?_ ?_
          · rw [f1] at hsrt
            simpa only [List.append_assoc] using hsrt
          · intro x hx
            rcases List.mem_append.1 hx with hx | hx
            · exact hlo x hx
            · exact f3 x hx
          · intro x hx
            rcases List.mem_append.1 hx with hx | hx
            · exact f4 x hx
            · exact hhi x hx
        have e2 : rowsOf (B ++ l.nodes) ++ ((addRoom E (E.key row) row n).vals ++ rowsOf (r.nodes ++ A)) =
            (rowsOf (B ++ l.nodes) ++ a) ++ row :: (b ++ rowsOf (r.nodes ++ A)) := by
          rw [f2]; simp
        obtain ⟨g1, g2⟩ := hput (addRoom E (E.key row) row n) rfl rfl rfl f5 (by rw [e2]; exact hs')
        refine ⟨_, true, rfl, fun _ => rfl, g1, fun _ => ⟨rowsOf (B ++ l.nodes) ++ a, b ++ rowsOf (r.nodes ++ A), ?_, ?_⟩, by simp⟩
        · rw [hrows, f1]; simp
        · simp only
          rw [g2, e2]
      · rw [if_neg hlen]
        obtain ⟨m, lo, hi, f1, f2, f3, f4, f5, f6⟩ := addFull_spec row n hn hsn hlen
        have hmr : n.vals.headD 0 = m := by rw [f1]; rfl
        have hkm : n.mn = E.key m := f2.symm
        rw [hmr, hkm]
        generalize hP : rowsOf (B ++ l.nodes) = P at *
        generalize hQ : rowsOf (r.nodes ++ A) = Q at *
        have hs0 : Srt E ((P ++ m :: lo) ++ (hi ++ Q)) := by
          rw [f1] at hsrt
          simpa only [List.append_assoc, List.cons_append] using hsrt
        have hmk : E.le (E.key m) (E.key row) := by rw [f2]; exact c1
        have hs' : Srt E ((P ++ m :: lo) ++ row :: (hi ++ Q)) := by
          refine srt_ins hs0 ?_ ?_
          · intro x hx
            simp only [List.mem_append, List.mem_cons] at hx
            rcases hx with hx | hx | hx
            · exact hlo x hx
            · rw [hx]; exact hmk
            · exact f4 x hx
          · intro x hx
            rcases List.mem_append.1 hx with hx | hx
            · exact f5 x hx
            · exact hhi x hx
        have hs1 : Srt E (P ++ ((lo ++ row :: hi) ++ Q)) := by
          refine hs'.sublist ?_
          simp only [List.append_assoc, List.cons_append]
          exact (List.Sublist.refl P).append (List.sublist_cons_self _ _)
        generalize hn' : addFull E (E.key row) row n = n' at *
        have hn'id : n'.id = n.id ∧ n'.lh = n.lh ∧ n'.rh = n.rh := by
          rw [← hn']
          unfold addFull
          simp only
          split <;> exact ⟨rfl, rfl, rfl⟩
        obtain ⟨i1, i2, i3⟩ := hn'id
        obtain ⟨g1, g2⟩ := hput n' i1 i2 i3 f6 (by rw [f3]; exact hs1)
        rw [f3] at g2
        have hadd : ∀ rs', rs' = (P ++ m :: lo) ++ row :: (hi ++ Q) → Added row ix.tree.rows rs' := by
          intro rs' e
          refine ⟨P ++ m :: lo, hi ++ Q, ?_, e⟩
          rw [hrows, f1]; simp
        have hlost : Swapped row ix.tree.rows (ix.tree.put p (.node n' l r)).rows := by
          refine ⟨P, m, lo, hi ++ Q, ?_, ?_⟩
          · rw [hrows, f1]; simp
          · rw [g2]; simp
        have ht1p : (ix.tree.put p (.node n' l r)).get p = some (.node n' l r) := get_put _ hp
        have hbt1 : Bal (ix.tree.put p (.node n' l r)) := g1.bal
        cases hlN : l.isNil
        · rw [if_neg (by simp)]
          obtain ⟨g, gl, k1, k2, k3⟩ := get_lastPath l hlN
          have hgp : (ix.tree.put p (.node n' l r)).get (p ++ false :: l.lastPath) = some (.node g gl .nil) := by
            rw [get_append _ ht1p]
            simpa [Tree.get] using k1
          rw [hgp]
          simp only
          -- the last node of the left subtree
          have hgok : NodeOk E g := sP.ok g (by rw [k3]; simp)
          have hPg : P = rowsOf (B ++ (l.before l.lastPath ++ gl.nodes)) ++ g.vals := by
            rw [← hP, k3]
            simp [rowsOf]
          have hbg : Bal (.node g gl .nil) := by
            obtain ⟨_, _, _, _, hbl, _⟩ := hbn
            exact bal_get hbl k1
          by_cases hglen : g.vals.length < cap
          · rw [if_pos hglen]
            have hk := put_append (false :: l.lastPath) (.node { g with vals := g.vals ++ [m], mx := E.key m } gl .nil) ht1p
            have hk2 : (ix.tree.put p (.node n' l r)).put (p ++ false :: l.lastPath)
                (.node { g with vals := g.vals ++ [m], mx := E.key m } gl .nil) =
                ix.tree.put p (.node n' (l.put l.lastPath (.node { g with vals := g.vals ++ [m], mx := E.key m } gl .nil)) r) := by
              rw [hk, put_put]
              simp [Tree.put]
            rw [hk2]
            have hg'ok : NodeOk E { g with vals := g.vals ++ [m], mx := E.key m } := by
              refine ⟨?_, by simp, by simp; omega⟩
              obtain ⟨y, ys, q1, q2⟩ := hgok.head
              simp [q1, q2]
            have hlput : (l.put l.lastPath (.node { g with vals := g.vals ++ [m], mx := E.key m } gl .nil)).nodes =
                (l.before l.lastPath ++ gl.nodes) ++ [{ g with vals := g.vals ++ [m], mx := E.key m }] := by
              rw [nodes_put _ k1, k2]
              simp [Tree.nodes]
            have hbl := hbn
            obtain ⟨w1, w2, w3, w4, w5, w6⟩ := hbl
            have hbl' := bal_put w5 k1 (s' := .node { g with vals := g.vals ++ [m], mx := E.key m } gl .nil)
              (by simpa only [Bal] using hbg) rfl
            have e1 : B ++ ((Tree.node n' (l.put l.lastPath (.node { g with vals := g.vals ++ [m], mx := E.key m } gl .nil)) r).nodes ++ A)
                = (B ++ (l.before l.lastPath ++ gl.nodes)) ++ ({ g with vals := g.vals ++ [m], mx := E.key m } :: n' :: (r.nodes ++ A)) := by
              simp only [Tree.nodes, hlput]
              simp
            have hrw : rowsOf ((B ++ (l.before l.lastPath ++ gl.nodes)) ++ ({ g with vals := g.vals ++ [m], mx := E.key m } :: n' :: (r.nodes ++ A)))
                = (P ++ m :: lo) ++ row :: (hi ++ Q) := by
              rw [rowsOf_append, rowsOf_cons, rowsOf_cons, hQ, f3, hPg]
              simp
            refine ⟨_, true, rfl, fun _ => rfl, ?_, fun _ => hadd _ ?_, by simp⟩
            · refine good_put hg hp ?_ ?_ ?_ ?_
              · simp only [Bal]
                refine ⟨?_, by rw [i3]; exact w2, by omega, by omega, hbl'.1, w6⟩
                rw [i2, hbl'.2]
                exact w1
              · simp only [hgt_node, i2, i3]
              · simp only [Tree.nodes, hlput]
                rw [k3]
                simp [i1]
              · rw [hB, hA, e1]
                refine ⟨?_, by rw [hrw]; exact hs'⟩
                intro x hx
                simp only [List.mem_append, List.mem_cons] at hx
                rcases hx with (hx | hx | hx) | hx | hx | hx | hx
                · exact sP.ok x (by simp [hx])
                · exact sP.ok x (by rw [k3]; simp [hx])
                · exact sP.ok x (by rw [k3]; simp [hx])
                · rw [hx]; exact hg'ok
                · rw [hx]; exact f6
                · exact sQ.ok x (by simp [hx])
                · exact sQ.ok x (by simp [hx])
            · simp only
              unfold Tree.rows
              rw [nodes_put _ hp, hB, hA, e1, hrw]
          · rw [if_neg hglen]
            cases fresh with
            | none => exact ⟨_, false, rfl, by simp, g1, by simp, fun _ => Or.inr hlost⟩
            | some id =>
              have hidn := hf id rfl
              have hq : (ix.tree.put p (.node n' l r)).get ((p ++ false :: l.lastPath) ++ [true]) = some .nil := by
                rw [get_append _ hgp]
                simp [Tree.get]
              have hbq : (ix.tree.put p (.node n' l r)).before ((p ++ false :: l.lastPath) ++ [true]) = B ++ l.nodes := by
                rw [before_append _ hgp, before_append _ ht1p, before_put _ hp, hB, k3]
                simp [Tree.before]
              have haq : (ix.tree.put p (.node n' l r)).after ((p ++ false :: l.lastPath) ++ [true]) = n' :: (r.nodes ++ A) := by
                rw [after_append _ hgp, after_append _ ht1p, after_put _ hp, hA]
                simp [Tree.after, k2]
              have hidl : ix.chain = (B ++ (l.before l.lastPath ++ gl.nodes)).map Node.id ++ g.id :: ([n] ++ (r.nodes ++ A)).map Node.id := by
                rw [hids, k3]
                simp
              have hch : insAfter g.id id ix.chain = (B ++ l.nodes).map Node.id ++ id :: ([n] ++ (r.nodes ++ A)).map Node.id := by
                rw [hidl, insAfter_eq, k3]
                · simp
                · rw [hidl] at hnd
                  intro hc
                  exact (List.nodup_append.1 hnd).2.2 g.id hc g.id (by simp) rfl
              obtain ⟨ix', q1, q2, q3⟩ := addLeaf_spec (E := E) ix id (ix.tree.put p (.node n' l r)) ((p ++ false :: l.lastPath) ++ [true]) m
                (fun i => insAfter g.id i ix.chain) hbt1 hq (by
                  rw [hbq, haq]
                  refine ⟨?_, ?_⟩
                  · intro x hx
                    simp only [List.mem_append, List.mem_cons] at hx
                    rcases hx with hx | hx | hx | hx | hx
                    · exact sP.ok x (List.mem_append.2 hx)
                    · rw [hx]; exact leaf_ok id m
                    · rw [hx]; exact f6
                    · exact sQ.ok x (by simp [hx])
                    · exact sQ.ok x (by simp [hx])
                  · rw [rowsOf_append, rowsOf_cons, rowsOf_cons, hP, hQ, f3]
                    simpa [leafNode] using hs') (by
                  rw [hch, hbq, haq]
                  simp [leafNode, i1]) (by
                  rw [hch]
                  refine List.Perm.nodup (List.perm_middle.symm) (List.nodup_cons.2 ⟨?_, ?_⟩)
                  · rw [← List.map_append, ← hids]
                    exact hidn
                  · rw [← List.map_append, ← hids]
                    exact hnd)
              refine ⟨ix', true, q1, fun _ => rfl, q2, fun _ => hadd _ ?_, by simp⟩
              rw [q3, hbq, haq, rowsOf_cons, hP, hQ, f3]
              simp
        · rw [if_pos rfl]
          cases l with
          | node _ _ _ => cases hlN
          | nil =>
            cases fresh with
            | none => exact ⟨_, false, rfl, by simp, g1, by simp, fun _ => Or.inr hlost⟩
            | some id =>
              have hidn := hf id rfl
              have hq : (ix.tree.put p (.node n' .nil r)).get (p ++ [false]) = some .nil := by
                rw [get_append _ ht1p]
                simp [Tree.get]
              have hbq : (ix.tree.put p (.node n' .nil r)).before (p ++ [false]) = B := by
                rw [before_append _ ht1p, before_put _ hp, hB]
                simp [Tree.before]
              have haq : (ix.tree.put p (.node n' .nil r)).after (p ++ [false]) = n' :: (r.nodes ++ A) := by
                rw [after_append _ ht1p, after_put _ hp, hA]
                simp [Tree.after]
              have hB0 : B ++ Tree.nil.nodes = B := by simp [Tree.nodes]
              rw [hB0] at hids hP hnid sP
              have hidl : ix.chain = B.map Node.id ++ n.id :: (r.nodes ++ A).map Node.id := by
                rw [hids]
                simp
              have hch : insBefore n.id id ix.chain = B.map Node.id ++ id :: ([n] ++ (r.nodes ++ A)).map Node.id := by
                rw [hidl, insBefore_eq _ _ _ _ hnid]
                simp
              obtain ⟨ix', q1, q2, q3⟩ := addLeaf_spec (E := E) ix id (ix.tree.put p (.node n' .nil r)) (p ++ [false]) m
                (fun i => insBefore n.id i ix.chain) hbt1 hq (by
                  rw [hbq, haq]
                  refine ⟨?_, ?_⟩
                  · intro x hx
                    simp only [List.mem_append, List.mem_cons] at hx
                    rcases hx with hx | hx | hx | hx | hx
                    · exact sP.ok x hx
                    · rw [hx]; exact leaf_ok id m
                    · rw [hx]; exact f6
                    · exact sQ.ok x (by simp [hx])
                    · exact sQ.ok x (by simp [hx])
                  · rw [rowsOf_append, rowsOf_cons, rowsOf_cons, hP, hQ, f3]
                    simpa [leafNode] using hs') (by
                  rw [hch, hbq, haq]
                  simp [leafNode, i1]) (by
                  rw [hch]
                  refine List.Perm.nodup (List.perm_middle.symm) (List.nodup_cons.2 ⟨?_, ?_⟩)
                  · rw [← List.map_append, ← hids]
                    exact hidn
                  · rw [← List.map_append, ← hids]
                    exact hnd)
              refine ⟨ix', true, q1, fun _ => rfl, q2, fun _ => hadd _ ?_, by simp⟩
              rw [q3, hbq, haq, rowsOf_cons, hP, hQ, f3]
              simp
    | deadLeft =>
      simp only at hspec ⊢
      obtain ⟨rfl, c2, c3⟩ := hspec
      have hB0 : B ++ Tree.nil.nodes = B := by simp [Tree.nodes]
      rw [hB0] at hids hrows hsrt hnid sP hput
      have hlo : ∀ x ∈ rowsOf B, E.le (E.key x) (E.key row) := rows_le sP (fun m hm => le_of_lt (c3 m hm))
      have hhin : ∀ x ∈ n.vals, E.le (E.key row) (E.key x) := fun x hx =>
        le_trans (le_of_lt c2) (node_between hn hsn hx).1
      have hhi : ∀ x ∈ n.vals ++ rowsOf (r.nodes ++ A), E.le (E.key row) (E.key x) := by
        intro x hx
        rcases List.mem_append.1 hx with hx | hx
        · exact hhin x hx
        · exact rows_ge sQ (fun m hm => le_trans (le_trans (le_of_lt c2) (mn_le_mx hn hsn)) (hnQ m hm)) x hx
      have hs' : Srt E (rowsOf B ++ row :: (n.vals ++ rowsOf (r.nodes ++ A))) := srt_ins hsrt hlo hhi
      have hadd : ∀ rs', rs' = rowsOf B ++ row :: (n.vals ++ rowsOf (r.nodes ++ A)) → Added row ix.tree.rows rs' :=
        fun rs' e => ⟨_, _, hrows, e⟩
      by_cases hlen : n.vals.length < cap
      · rw [if_pos hlen]
        have hne : n.vals.isEmpty = false := by
          cases hv : n.vals with
          | nil => exact absurd hv hn.ne
          | cons _ _ => rfl
        rw [hne]
        obtain ⟨g1, g2⟩ := hput { n with vals := row :: n.vals, mn := E.key row, mx := if false = true then E.key row else n.mx } rfl rfl rfl
          ⟨rfl, by
            obtain ⟨xs, x, q1, q2⟩ := hn.last
            show Option.map E.key (row :: n.vals).getLast? = some n.mx
            rw [q1, ← List.cons_append, List.getLast?_append]
            simp [q2], by simp; omega⟩ (by simpa using hs')
        refine ⟨_, true, rfl, fun _ => rfl, g1, fun _ => hadd _ ?_, by simp⟩
        simpa using g2
      · rw [if_neg hlen]
        cases fresh with
        | none => exact ⟨_, false, rfl, by simp, by cases ix; exact hg, by simp, fun _ => Or.inl rfl⟩
        | some id =>
          have hidn := hf id rfl
          have hq : ix.tree.get (p ++ [false]) = some .nil := by
            rw [get_append _ hp]
            simp [Tree.get]
          have hbq : ix.tree.before (p ++ [false]) = B := by
            rw [before_append _ hp, hB]
            simp [Tree.before]
          have haq : ix.tree.after (p ++ [false]) = n :: (r.nodes ++ A) := by
            rw [after_append _ hp, hA]
            simp [Tree.after]
          have hidl : ix.chain = B.map Node.id ++ n.id :: (r.nodes ++ A).map Node.id := by
            rw [hids]
            simp
          have hch : insBefore n.id id ix.chain = B.map Node.id ++ id :: ([n] ++ (r.nodes ++ A)).map Node.id := by
            rw [hidl, insBefore_eq _ _ _ _ hnid]
            simp
          obtain ⟨ix', q1, q2, q3⟩ := addLeaf_spec (E := E) ix id ix.tree (p ++ [false]) row
            (fun i => insBefore n.id i ix.chain) hg.bal hq (by
              rw [hbq, haq]
              refine ⟨?_, ?_⟩
              · intro x hx
                simp only [List.mem_append, List.mem_cons] at hx
                rcases hx with hx | hx | hx | hx | hx
                · exact sP.ok x hx
                · rw [hx]; exact leaf_ok id row
                · rw [hx]; exact hn
                · exact sQ.ok x (by simp [hx])
                · exact sQ.ok x (by simp [hx])
              · rw [rowsOf_append, rowsOf_cons, rowsOf_cons]
                simpa [leafNode] using hs') (by
              rw [hch, hbq, haq]
              simp [leafNode]) (by
              rw [hch]
              refine List.Perm.nodup (List.perm_middle.symm) (List.nodup_cons.2 ⟨?_, ?_⟩)
              · rw [← List.map_append, ← hids]
                exact hidn
              · rw [← List.map_append, ← hids]
                exact hnd)
          refine ⟨ix', true, q1, fun _ => rfl, q2, fun _ => hadd _ ?_, by simp⟩
          rw [q3, hbq, haq, rowsOf_cons]
    | deadRight =>
      simp only at hspec ⊢
      obtain ⟨rfl, c2, c3, c4⟩ := hspec
      have hA0 : Tree.nil.nodes ++ A = A := by simp [Tree.nodes]
      rw [hA0] at hids hrows hsrt sQ hput
      have hlo : ∀ x ∈ rowsOf (B ++ l.nodes) ++ n.vals, E.le (E.key x) (E.key row) := by
        intro x hx
        rcases List.mem_append.1 hx with hx | hx
        · exact rows_le sP (fun m hm => le_trans (hPn m hm) c3) x hx
        · exact le_trans (node_between hn hsn hx).2 (le_of_lt c2)
      have hhi : ∀ x ∈ rowsOf A, E.le (E.key row) (E.key x) := rows_ge sQ (fun m hm => le_of_lt (c4 m hm))
      have hs' : Srt E ((rowsOf (B ++ l.nodes) ++ n.vals) ++ row :: rowsOf A) :=
        srt_ins (by simpa only [List.append_assoc] using hsrt) hlo hhi
      have hadd : ∀ rs', rs' = (rowsOf (B ++ l.nodes) ++ n.vals) ++ row :: rowsOf A → Added row ix.tree.rows rs' :=
        fun rs' e => ⟨_, _, by rw [hrows]; simp, e⟩
      by_cases hlen : n.vals.length < cap
      · rw [if_pos hlen]
        have hne : n.vals.isEmpty = false := by
          cases hv : n.vals with
          | nil => exact absurd hv hn.ne
          | cons _ _ => rfl
        rw [hne]
        obtain ⟨g1, g2⟩ := hput { n with vals := n.vals ++ [row], mx := E.key row, mn := if false = true then E.key row else n.mn } rfl rfl rfl
          ⟨by
            obtain ⟨y, ys, q1, q2⟩ := hn.head
            simp [q1, q2], by simp, by simp; omega⟩ (by simpa using hs')
        refine ⟨_, true, rfl, fun _ => rfl, g1, fun _ => hadd _ ?_, by simp⟩
        simpa using g2
      · rw [if_neg hlen]
        cases fresh with
        | none => exact ⟨_, false, rfl, by simp, by cases ix; exact hg, by simp, fun _ => Or.inl rfl⟩
        | some id =>
          have hidn := hf id rfl
          have hq : ix.tree.get (p ++ [true]) = some .nil := by
            rw [get_append _ hp]
            simp [Tree.get]
          have hbq : ix.tree.before (p ++ [true]) = (B ++ l.nodes) ++ [n] := by
            rw [before_append _ hp, hB]
            simp [Tree.before]
          have haq : ix.tree.after (p ++ [true]) = A := by
            rw [after_append _ hp, hA]
            simp [Tree.after]
          have hidl : ix.chain = (B ++ l.nodes).map Node.id ++ n.id :: A.map Node.id := by
            rw [hids]
            simp
          have hch : insAfter n.id id ix.chain = ((B ++ l.nodes) ++ [n]).map Node.id ++ id :: A.map Node.id := by
            rw [hidl, insAfter_eq _ _ _ _ hnid]
            simp
          have hids2 : ix.chain = ((B ++ l.nodes) ++ [n]).map Node.id ++ A.map Node.id := by
            rw [hids]; simp
          obtain ⟨ix', q1, q2, q3⟩ := addLeaf_spec (E := E) ix id ix.tree (p ++ [true]) row
            (fun i => insAfter n.id i ix.chain) hg.bal hq (by
              rw [hbq, haq]
              refine ⟨?_, ?_⟩
              · intro x hx
                simp only [List.mem_append, List.mem_cons] at hx
                rcases hx with ((hx | hx) | hx | hx) | hx | hx
                · exact sP.ok x (by simp [hx])
                · exact sP.ok x (by simp [hx])
                · rw [hx]; exact hn
                · cases hx
                · rw [hx]; exact leaf_ok id row
                · exact sQ.ok x hx
              · rw [rowsOf_append, rowsOf_cons, rowsOf_append (B ++ l.nodes)]
                simpa [leafNode, rowsOf] using hs') (by
              rw [hch, hbq, haq]
              simp [leafNode]) (by
              rw [hch]
              refine List.Perm.nodup (List.perm_middle.symm) (List.nodup_cons.2 ⟨?_, ?_⟩)
              · rw [← hids2]
                exact hidn
              · rw [← hids2]
                exact hnd)
          refine ⟨ix', true, q1, fun _ => rfl, q2, fun _ => hadd _ ?_, by simp⟩
          rw [q3, hbq, haq, rowsOf_append (B ++ l.nodes)]
          simp [rowsOf]

end

end Gkc.TTree
