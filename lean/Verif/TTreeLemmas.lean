import Verif.TTree
/-
T-trees: paths and lists of nodes, order, search.
-/
namespace Gkc.TTree
open Gkc.Compare (Word)
open Std

/-! ### Paths -/

/-- nodes before the subtree at the end of the path -/
def Tree.before : Tree → Path → List Node
  | _, [] => []
  | .nil, _ :: _ => []
  | .node n l r, d :: p => if d then l.nodes ++ n :: r.before p else l.before p

/-- nodes behind the subtree at the end of the path -/
def Tree.after : Tree → Path → List Node
  | _, [] => []
  | .nil, _ :: _ => []
  | .node n l r, d :: p => if d then r.after p else l.after p ++ n :: r.nodes

theorem nodes_get : ∀ {t : Tree} {p : Path} {s : Tree}, t.get p = some s → t.nodes = t.before p ++ (s.nodes ++ t.after p)
  | t, [], s, h => by
    simp only [Tree.get] at h
    cases h
    cases t <;> simp [Tree.before, Tree.after]
  | .nil, _ :: _, _, h => by simp [Tree.get] at h
  | .node n l r, d :: p, s, h => by
    cases d
    · simp only [Tree.get, Bool.false_eq_true, if_false] at h
      simp only [Tree.nodes, Tree.before, Tree.after, Bool.false_eq_true, if_false, nodes_get h, List.append_assoc]
    · simp only [Tree.get, if_true] at h
      simp only [Tree.nodes, Tree.before, Tree.after, if_true, nodes_get h, List.append_assoc, List.cons_append]

theorem get_put : ∀ {t : Tree} {p : Path} {s : Tree} (s' : Tree), t.get p = some s → (t.put p s').get p = some s'
  | t, [], _, s', _ => by cases t <;> cases s' <;> rfl
  | .nil, _ :: _, _, _, h => by simp [Tree.get] at h
  | .node n l r, d :: p, s, s', h => by
    cases d
    · simp only [Tree.get, Tree.put, Bool.false_eq_true, if_false] at h ⊢
      exact get_put s' h
    · simp only [Tree.get, Tree.put, if_true] at h ⊢
      exact get_put s' h

theorem before_put : ∀ {t : Tree} {p : Path} {s : Tree} (s' : Tree), t.get p = some s → (t.put p s').before p = t.before p
  | t, [], _, s', _ => by cases t <;> cases s' <;> rfl
  | .nil, _ :: _, _, _, h => by simp [Tree.get] at h
  | .node n l r, d :: p, s, s', h => by
    cases d
    · simp only [Tree.get, Tree.put, Tree.before, Bool.false_eq_true, if_false] at h ⊢
      exact before_put s' h
    · simp only [Tree.get, Tree.put, Tree.before, if_true] at h ⊢
      rw [before_put s' h]

theorem after_put : ∀ {t : Tree} {p : Path} {s : Tree} (s' : Tree), t.get p = some s → (t.put p s').after p = t.after p
  | t, [], _, s', _ => by cases t <;> cases s' <;> rfl
  | .nil, _ :: _, _, _, h => by simp [Tree.get] at h
  | .node n l r, d :: p, s, s', h => by
    cases d
    · simp only [Tree.get, Tree.put, Tree.after, Bool.false_eq_true, if_false] at h ⊢
      rw [after_put s' h]
    · simp only [Tree.get, Tree.put, Tree.after, if_true] at h ⊢
      exact after_put s' h

theorem nodes_put {t : Tree} {p : Path} {s : Tree} (s' : Tree) (h : t.get p = some s) :
    (t.put p s').nodes = t.before p ++ (s'.nodes ++ t.after p) := by
  rw [nodes_get (get_put s' h), before_put s' h, after_put s' h]

theorem get_append : ∀ {t : Tree} {p : Path} {s : Tree} (q : Path), t.get p = some s → t.get (p ++ q) = s.get q
  | t, [], _, q, h => by
    simp only [Tree.get] at h
    cases h
    rfl
  | .nil, _ :: _, _, _, h => by simp [Tree.get] at h
  | .node n l r, d :: p, s, q, h => by
    cases d
    · simp only [Tree.get, List.cons_append, Bool.false_eq_true, if_false] at h ⊢
      exact get_append q h
    · simp only [Tree.get, List.cons_append, if_true] at h ⊢
      exact get_append q h

theorem put_append : ∀ {t : Tree} {p : Path} {s : Tree} (q : Path) (s' : Tree), t.get p = some s →
    t.put (p ++ q) s' = t.put p (s.put q s')
  | t, [], _, q, s', h => by
    simp only [Tree.get] at h
    cases h
    simp only [List.nil_append]
    cases t <;> rfl
  | .nil, _ :: _, _, _, _, h => by simp [Tree.get] at h
  | .node n l r, d :: p, s, q, s', h => by
    cases d
    · simp only [Tree.get, Tree.put, List.cons_append, Bool.false_eq_true, if_false] at h ⊢
      rw [put_append q s' h]
    · simp only [Tree.get, Tree.put, List.cons_append, if_true] at h ⊢
      rw [put_append q s' h]

theorem put_put : ∀ {t : Tree} {p : Path} (s s' : Tree), (t.put p s).put p s' = t.put p s'
  | t, [], s, s' => by cases t <;> cases s <;> rfl
  | .nil, _ :: _, _, _ => rfl
  | .node n l r, d :: p, s, s' => by
    cases d
    · simp only [Tree.put, Bool.false_eq_true, if_false, put_put]
    · simp only [Tree.put, if_true, put_put]

theorem before_append : ∀ {t : Tree} {p : Path} {s : Tree} (q : Path), t.get p = some s →
    t.before (p ++ q) = t.before p ++ s.before q
  | t, [], _, q, h => by
    simp only [Tree.get] at h
    cases h
    cases t <;> rfl
  | .nil, _ :: _, _, _, h => by simp [Tree.get] at h
  | .node n l r, d :: p, s, q, h => by
    cases d
    · simp only [Tree.get, Tree.before, List.cons_append, Bool.false_eq_true, if_false] at h ⊢
      exact before_append q h
    · simp only [Tree.get, Tree.before, List.cons_append, if_true] at h ⊢
      rw [before_append q h]
      simp

theorem after_append : ∀ {t : Tree} {p : Path} {s : Tree} (q : Path), t.get p = some s →
    t.after (p ++ q) = s.after q ++ t.after p
  | t, [], _, q, h => by
    simp only [Tree.get] at h
    cases h
    cases t <;> simp [Tree.after]
  | .nil, _ :: _, _, _, h => by simp [Tree.get] at h
  | .node n l r, d :: p, s, q, h => by
    cases d
    · simp only [Tree.get, Tree.after, List.cons_append, Bool.false_eq_true, if_false] at h ⊢
      rw [after_append q h]
      simp
    · simp only [Tree.get, Tree.after, List.cons_append, if_true] at h ⊢
      exact after_append q h

theorem get_lastPath : ∀ t : Tree, t.isNil = false → ∃ g gl, t.get t.lastPath = some (.node g gl .nil) ∧ t.after t.lastPath = [] ∧
    t.nodes = (t.before t.lastPath ++ gl.nodes) ++ [g]
  | .nil, h => by cases h
  | .node n l r, _ => by
    cases hr : r.isNil
    · obtain ⟨g, gl, h1, h2, h3⟩ := get_lastPath r hr
      refine ⟨g, gl, ?_, ?_, ?_⟩
      · simp only [Tree.lastPath, hr, Bool.false_eq_true, if_false, Tree.get, if_true]
        exact h1
      · simp only [Tree.lastPath, hr, Bool.false_eq_true, if_false, Tree.after, if_true]
        exact h2
      · simp only [Tree.lastPath, hr, Bool.false_eq_true, if_false, Tree.before, if_true, Tree.nodes]
        rw [h3]
        simp
    · cases r with
      | node _ _ _ => cases hr
      | nil =>
        refine ⟨n, l, ?_, ?_, ?_⟩ <;> simp [Tree.lastPath, Tree.isNil, Tree.get, Tree.after, Tree.before, Tree.nodes]

/-! ### Order -/

/-- the comparison is an order, and every key is greater than WG_ILLEGAL -/
structure Env.Ok (E : Env) : Prop where
  trans : TransCmp E.cmp
  ill : ∀ row, E.cmp (E.key row) E.ill = .gt

/-- not greater -/
def Env.le (E : Env) (a b : Word) : Prop := E.cmp a b ≠ .gt

/-- less -/
def Env.lt (E : Env) (a b : Word) : Prop := E.cmp a b = .lt

section order
variable {E : Env} [TransCmp E.cmp]

theorem le_refl (a : Word) : E.le a a := by
  unfold Env.le
  rw [ReflCmp.compare_self (cmp := E.cmp)]
  decide

theorem le_iff (a b : Word) : E.le a b ↔ (E.cmp a b).isLE := by
  unfold Env.le
  cases E.cmp a b <;> decide

theorem le_trans {a b c : Word} (h1 : E.le a b) (h2 : E.le b c) : E.le a c := by
  rw [le_iff] at *
  exact TransCmp.isLE_trans h1 h2

theorem lt_of_le_of_lt {a b c : Word} (h1 : E.le a b) (h2 : E.lt b c) : E.lt a c := by
  rw [le_iff] at *
  exact TransCmp.lt_of_isLE_of_lt h1 h2

theorem lt_of_lt_of_le {a b c : Word} (h1 : E.lt a b) (h2 : E.le b c) : E.lt a c := by
  rw [le_iff] at *
  exact TransCmp.lt_of_lt_of_isLE h1 h2

theorem le_of_lt {a b : Word} (h : E.lt a b) : E.le a b := by
  unfold Env.lt at h
  unfold Env.le
  rw [h]
  decide

theorem gt_iff (a b : Word) : E.cmp a b = .gt ↔ E.lt b a := OrientedCmp.gt_iff_lt (cmp := E.cmp)

theorem not_lt (a b : Word) : E.cmp a b ≠ .lt ↔ E.le b a := by
  unfold Env.le
  rw [Ne, Ne, not_congr]
  exact (gt_iff b a).symm

theorem le_of_not_lt {a b : Word} (h : E.cmp a b ≠ .lt) : E.le b a := (not_lt a b).1 h

theorem lt_irrefl (a : Word) : ¬ E.lt a a := by
  unfold Env.lt
  rw [ReflCmp.compare_self (cmp := E.cmp)]
  decide

theorem not_le (a b : Word) : ¬ E.le a b ↔ E.lt b a := by
  unfold Env.le
  rw [Classical.not_not]
  exact gt_iff a b

theorem le_total (a b : Word) : E.le a b ∨ E.lt b a := by
  by_cases h : E.le a b
  · exact Or.inl h
  · exact Or.inr ((not_le a b).1 h)

end order

/-- rows of a list of nodes -/
def rowsOf (ns : List Node) : List Row := ns.flatMap Node.vals

/-- rows in order -/
def Tree.rows (t : Tree) : List Row := rowsOf t.nodes

theorem rowsOf_append (a b : List Node) : rowsOf (a ++ b) = rowsOf a ++ rowsOf b := by
  simp [rowsOf]

theorem rowsOf_cons (a : Node) (b : List Node) : rowsOf (a :: b) = a.vals ++ rowsOf b := by
  simp [rowsOf]

/-- rows sorted by key -/
def Srt (E : Env) (rs : List Row) : Prop := rs.Pairwise fun a b => E.le (E.key a) (E.key b)

/-- a node is not empty nor too full, and knows its smallest and its greatest value -/
structure NodeOk (E : Env) (n : Node) : Prop where
  mn : n.vals.head?.map E.key = some n.mn
  mx : n.vals.getLast?.map E.key = some n.mx
  len : n.vals.length ≤ cap

theorem NodeOk.head {E : Env} {n : Node} (h : NodeOk E n) : ∃ x xs, n.vals = x :: xs ∧ E.key x = n.mn := by
  have := h.mn
  cases hv : n.vals with
  | nil => simp [hv] at this
  | cons x xs => exact ⟨x, xs, rfl, by simpa [hv] using this⟩

theorem NodeOk.last {E : Env} {n : Node} (h : NodeOk E n) : ∃ xs x, n.vals = xs ++ [x] ∧ E.key x = n.mx := by
  have := h.mx
  rcases List.eq_nil_or_concat n.vals with hv | ⟨xs, x, hv⟩
  · simp [hv] at this
  · refine ⟨xs, x, by simpa using hv, ?_⟩
    rw [hv] at this
    simpa using this

theorem NodeOk.ne {E : Env} {n : Node} (h : NodeOk E n) : n.vals ≠ [] := by
  obtain ⟨x, xs, e, _⟩ := h.head
  rw [e]; simp

theorem srt_append {E : Env} {a b : List Row} : Srt E (a ++ b) ↔ Srt E a ∧ Srt E b ∧ ∀ x ∈ a, ∀ y ∈ b, E.le (E.key x) (E.key y) :=
  List.pairwise_append

section
variable {E : Env} [TransCmp E.cmp]

/-- values of a node lie between its bounds -/
theorem node_between {n : Node} (h : NodeOk E n) (hs : Srt E n.vals) {x : Row} (hx : x ∈ n.vals) :
    E.le n.mn (E.key x) ∧ E.le (E.key x) n.mx := by
  constructor
  · obtain ⟨y, ys, e, hk⟩ := h.head
    rw [e] at hs hx
    rw [← hk]
    rcases List.mem_cons.1 hx with rfl | hx
    · exact le_refl _
    · exact (List.pairwise_cons.1 hs).1 x hx
  · obtain ⟨ys, y, e, hk⟩ := h.last
    rw [e] at hs hx
    rw [← hk]
    rcases List.mem_append.1 hx with hx | hx
    · exact (srt_append.1 hs).2.2 x hx y (by simp)
    · simp only [List.mem_singleton] at hx
      subst hx
      exact le_refl _

/-- all rows of the node, and all nodes behind -/
theorem nodes_sorted : ∀ {ns : List Node}, (∀ n ∈ ns, NodeOk E n) → Srt E (rowsOf ns) →
    ns.Pairwise (fun a b => E.le a.mx b.mn)
  | [], _, _ => List.Pairwise.nil
  | n :: ns, hok, hs => by
    rw [rowsOf_cons, srt_append] at hs
    refine List.Pairwise.cons (fun m hm => ?_) (nodes_sorted (fun m hm => hok m (List.mem_cons_of_mem _ hm)) hs.2.1)
    obtain ⟨xs, x, e, hk⟩ := (hok n List.mem_cons_self).last
    obtain ⟨y, ys, e', hk'⟩ := (hok m (List.mem_cons_of_mem _ hm)).head
    rw [← hk, ← hk']
    refine hs.2.2 x (by rw [e]; simp) y ?_
    unfold rowsOf
    rw [List.mem_flatMap]
    exact ⟨m, hm, by rw [e']; simp⟩

theorem mn_le_mx {n : Node} (h : NodeOk E n) (hs : Srt E n.vals) : E.le n.mn n.mx := by
  obtain ⟨x, xs, e, hk⟩ := h.head
  have := (node_between h hs (x := x) (by rw [e]; simp)).2
  rwa [hk] at this

/-! ### Search -/

/-- what is known of the tree that is searched -/
structure SOk (E : Env) (ns : List Node) : Prop where
  ok : ∀ n ∈ ns, NodeOk E n
  srt : Srt E (rowsOf ns)

theorem SOk.left {a b : List Node} (h : SOk E (a ++ b)) : SOk E a :=
  ⟨fun n hn => h.ok n (List.mem_append_left _ hn), by
    have := h.srt
    rw [rowsOf_append, srt_append] at this
    exact this.1⟩

theorem SOk.right {a b : List Node} (h : SOk E (a ++ b)) : SOk E b :=
  ⟨fun n hn => h.ok n (List.mem_append_right _ hn), by
    have := h.srt
    rw [rowsOf_append, srt_append] at this
    exact this.2.1⟩

theorem SOk.pw {ns : List Node} (h : SOk E ns) : ns.Pairwise (fun a b => E.le a.mx b.mn) := nodes_sorted h.ok h.srt

theorem SOk.vals {ns : List Node} (h : SOk E ns) {n : Node} (hn : n ∈ ns) : Srt E n.vals := by
  obtain ⟨a, b, e⟩ := List.append_of_mem hn
  have := h.srt
  rw [e, rowsOf_append, rowsOf_cons, srt_append, srt_append] at this
  exact this.2.1.1

theorem SOk.mnmx {ns : List Node} (h : SOk E ns) {n : Node} (hn : n ∈ ns) : E.le n.mn n.mx :=
  mn_le_mx (h.ok n hn) (h.vals hn)

/-- what the search to the right says of the node found -/
def RSpec (E : Env) (k : Word) (t : Tree) (p : Path) (b : Bound) : Prop :=
  ∃ n l r, t.get p = some (.node n l r) ∧ match b with
    | .really => E.le n.mn k ∧ E.le k n.mx ∧ ∀ m ∈ r.nodes ++ t.after p, E.lt k m.mn
    | .deadLeft => l = .nil ∧ E.lt k n.mn ∧ ∀ m ∈ t.before p, E.lt m.mx k
    | .deadRight => r = .nil ∧ E.lt n.mx k ∧ E.le n.mn k ∧ ∀ m ∈ t.after p, E.lt k m.mn

theorem rightmost_spec (k : Word) : ∀ (t : Tree) (rb : Option Word), t.isNil = false → SOk E t.nodes →
    (∀ x, rb = some x → ∀ m ∈ t.nodes, E.le x m.mn) →
    ∃ f, rightmost E k t rb = some f ∧ match f with
      | .back => (∃ x, rb = some x ∧ E.le k x) ∧ ∀ m ∈ t.nodes, E.lt k m.mn
      | .at_ p b => RSpec E k t p b ∧ (b = .deadLeft → ∀ x, rb = some x → E.lt x k)
  | .nil, _, h, _, _ => by cases h
  | .node n l r, rb, _, hok, hrb => by
    have hn : n ∈ (Tree.node n l r).nodes := by simp [Tree.nodes]
    have hl : SOk E l.nodes := hok.left
    have hnr : SOk E (n :: r.nodes) := SOk.right (a := l.nodes) hok
    have hr : SOk E r.nodes := SOk.right (a := [n]) hnr
    have hpw := hok.pw
    simp only [Tree.nodes] at hpw
    have hnr' := (List.pairwise_append.1 hpw).2.1
    have hmn := hok.mnmx hn
    unfold rightmost
    by_cases h : E.cmp k n.mn = .lt
    · rw [if_pos h]
      have hgt : ∀ m ∈ n :: r.nodes, E.lt k m.mn := by
        intro m hm
        rcases List.mem_cons.1 hm with rfl | hm
        · exact h
        · exact lt_of_lt_of_le h (le_trans hmn ((List.pairwise_cons.1 hnr').1 m hm))
      cases hlN : l.isNil
      · rw [if_neg (by simp)]
        obtain ⟨f, h1, h2⟩ := rightmost_spec k l rb hlN hl
          (fun x hx m hm => hrb x hx m (by simp [Tree.nodes, hm]))
        rw [h1]
        refine ⟨f.step false, rfl, ?_⟩
        cases f with
        | back =>
          refine ⟨h2.1, fun m hm => ?_⟩
          simp only [Tree.nodes, List.mem_append] at hm
          rcases hm with hm | hm
          · exact h2.2 m hm
          · exact hgt m hm
        | at_ p b =>
          obtain ⟨⟨n', l', r', e, hb⟩, hx⟩ := h2
          refine ⟨⟨n', l', r', by simpa [Tree.get] using e, ?_⟩, hx⟩
          cases b with
          | really =>
            refine ⟨hb.1, hb.2.1, fun m hm => ?_⟩
            simp only [Tree.after, Bool.false_eq_true, if_false, ← List.append_assoc] at hm
            rcases List.mem_append.1 hm with hm | hm
            · exact hb.2.2 m hm
            · exact hgt m hm
          | deadLeft =>
            refine ⟨hb.1, hb.2.1, fun m hm => ?_⟩
            simp only [Tree.before, Bool.false_eq_true, if_false] at hm
            exact hb.2.2 m hm
          | deadRight =>
            refine ⟨hb.1, hb.2.1, hb.2.2.1, fun m hm => ?_⟩
            simp only [Tree.after, Bool.false_eq_true, if_false] at hm
            rcases List.mem_append.1 hm with hm | hm
            · exact hb.2.2.2 m hm
            · exact hgt m hm
      · rw [if_pos rfl]
        have hlnil : l = .nil := by
          cases l with
          | nil => rfl
          | node _ _ _ => cases hlN
        have hd : ∃ n' l' r', (Tree.node n l r).get [] = some (.node n' l' r') ∧ l' = .nil ∧ E.lt k n'.mn ∧
            ∀ m ∈ (Tree.node n l r).before [], E.lt m.mx k :=
          ⟨n, l, r, rfl, hlnil, h, by simp [Tree.before]⟩
        cases rb with
        | none => exact ⟨.at_ [] .deadLeft, rfl, hd, by simp⟩
        | some x =>
          simp only
          by_cases hx : E.cmp k x = .gt
          · rw [if_neg (by simpa using hx)]
            exact ⟨.at_ [] .deadLeft, rfl, hd, by
              intro _ y hy
              cases hy
              exact (gt_iff k x).1 hx⟩
          · rw [if_pos hx]
            refine ⟨.back, rfl, ⟨x, rfl, hx⟩, ?_⟩
            intro m hm
            simp only [Tree.nodes, hlnil, List.nil_append] at hm
            exact hgt m hm
    · rw [if_neg h]
      have hge : E.le n.mn k := le_of_not_lt h
      cases hrN : r.isNil
      · rw [if_neg (by simp)]
        obtain ⟨f, h1, h2⟩ := rightmost_spec k r (some n.mx) hrN hr
          (fun x hx m hm => by cases hx; exact (List.pairwise_cons.1 hnr').1 m hm)
        rw [h1]
        cases f with
        | back =>
          refine ⟨.at_ [] .really, rfl, ⟨n, l, r, rfl, hge, ?_, ?_⟩, by simp⟩
          · obtain ⟨⟨x, e, hx⟩, _⟩ := h2
            cases e
            exact hx
          · intro m hm
            simp only [Tree.after, List.append_nil] at hm
            exact h2.2 m hm
        | at_ p b =>
          refine ⟨.at_ (true :: p) b, rfl, ?_⟩
          obtain ⟨⟨n', l', r', e, hb⟩, hx⟩ := h2
          cases b with
          | really =>
            refine ⟨⟨n', l', r', by simpa [Tree.get] using e, hb.1, hb.2.1, fun m hm => ?_⟩, by simp⟩
            simp only [Tree.after, if_true] at hm
            exact hb.2.2 m hm
          | deadRight =>
            refine ⟨⟨n', l', r', by simpa [Tree.get] using e, hb.1, hb.2.1, hb.2.2.1, fun m hm => ?_⟩, by simp⟩
            simp only [Tree.after, if_true] at hm
            exact hb.2.2.2 m hm
          | deadLeft =>
            have hnx : E.lt n.mx k := hx rfl n.mx rfl
            refine ⟨⟨n', l', r', by simpa [Tree.get] using e, hb.1, hb.2.1, fun m hm => ?_⟩, fun _ x hx' => ?_⟩
            · simp only [Tree.before, if_true] at hm
              rcases List.mem_append.1 hm with hm | hm
              · exact lt_of_le_of_lt (le_trans ((List.pairwise_append.1 hpw).2.2 m hm n List.mem_cons_self) hmn) hnx
              · rcases List.mem_cons.1 hm with rfl | hm
                · exact hnx
                · exact hb.2.2 m hm
            · exact lt_of_le_of_lt (le_trans (hrb x hx' n hn) hmn) hnx
      · rw [if_pos rfl]
        have hrnil : r = .nil := by
          cases r with
          | nil => rfl
          | node _ _ _ => cases hrN
        by_cases hx : E.cmp k n.mx = .gt
        · rw [if_neg (by simpa using hx)]
          exact ⟨.at_ [] .deadRight, rfl, ⟨n, l, r, rfl, hrnil, (gt_iff k n.mx).1 hx, hge, by simp [Tree.after]⟩, by simp⟩
        · rw [if_pos hx]
          exact ⟨.at_ [] .really, rfl, ⟨n, l, r, rfl, hge, hx, by simp [Tree.after, hrnil, Tree.nodes]⟩, by simp⟩

/-- what the search to the left says of the node found -/
def LSpec (E : Env) (k : Word) (t : Tree) (p : Path) (b : Bound) : Prop :=
  ∃ n l r, t.get p = some (.node n l r) ∧ match b with
    | .really => E.le n.mn k ∧ E.le k n.mx ∧ ∀ m ∈ t.before p ++ l.nodes, E.lt m.mx k
    | .deadLeft => l = .nil ∧ E.lt k n.mn ∧ E.le k n.mx ∧ ∀ m ∈ t.before p, E.lt m.mx k
    | .deadRight => r = .nil ∧ E.lt n.mx k ∧ ∀ m ∈ t.after p, E.lt k m.mn

theorem leftmost_spec (k : Word) : ∀ (t : Tree) (lb : Option Word), t.isNil = false → SOk E t.nodes →
    (∀ x, lb = some x → ∀ m ∈ t.nodes, E.le m.mx x) →
    ∃ f, leftmost E k t lb = some f ∧ match f with
      | .back => (∃ x, lb = some x ∧ E.le x k) ∧ ∀ m ∈ t.nodes, E.lt m.mx k
      | .at_ p b => LSpec E k t p b ∧ (b = .deadRight → ∀ x, lb = some x → E.lt k x)
  | .nil, _, h, _, _ => by cases h
  | .node n l r, lb, _, hok, hlb => by
    have hn : n ∈ (Tree.node n l r).nodes := by simp [Tree.nodes]
    have hl : SOk E l.nodes := hok.left
    have hnr : SOk E (n :: r.nodes) := SOk.right (a := l.nodes) hok
    have hr : SOk E r.nodes := SOk.right (a := [n]) hnr
    have hpw := hok.pw
    simp only [Tree.nodes] at hpw
    have hnr' := (List.pairwise_append.1 hpw).2.1
    have hln := (List.pairwise_append.1 hpw).2.2
    have hmn := hok.mnmx hn
    unfold leftmost
    by_cases h : E.cmp k n.mx = .gt
    · rw [if_pos h]
      have h' : E.lt n.mx k := (gt_iff _ _).1 h
      have hgt : ∀ m ∈ l.nodes ++ [n], E.lt m.mx k := by
        intro m hm
        rcases List.mem_append.1 hm with hm | hm
        · exact lt_of_le_of_lt (le_trans (hln m hm n List.mem_cons_self) hmn) h'
        · cases List.mem_singleton.1 hm
          exact h'
      cases hrN : r.isNil
      · rw [if_neg (by simp)]
        obtain ⟨f, h1, h2⟩ := leftmost_spec k r lb hrN hr
          (fun x hx m hm => hlb x hx m (by simp [Tree.nodes, hm]))
        rw [h1]
        refine ⟨f.step true, rfl, ?_⟩
        cases f with
        | back =>
          refine ⟨h2.1, fun m hm => ?_⟩
          simp only [Tree.nodes, List.mem_append, List.mem_cons] at hm
          rcases hm with hm | hm | hm
          · exact hgt m (List.mem_append_left _ hm)
          · exact hgt m (by simp [hm])
          · exact h2.2 m hm
        | at_ p b =>
          obtain ⟨⟨n', l', r', e, hb⟩, hx⟩ := h2
          refine ⟨⟨n', l', r', by simpa [Tree.get] using e, ?_⟩, hx⟩
          cases b with
          | really =>
            refine ⟨hb.1, hb.2.1, fun m hm => ?_⟩
            simp only [Tree.before, if_true, List.append_assoc, List.cons_append, List.mem_append, List.mem_cons] at hm
            rcases hm with hm | hm | hm
            · exact hgt m (List.mem_append_left _ hm)
            · exact hgt m (by simp [hm])
            · exact hb.2.2 m (List.mem_append.2 hm)
          | deadLeft =>
            refine ⟨hb.1, hb.2.1, hb.2.2.1, fun m hm => ?_⟩
            simp only [Tree.before, if_true, List.mem_append, List.mem_cons] at hm
            rcases hm with hm | hm | hm
            · exact hgt m (List.mem_append_left _ hm)
            · exact hgt m (by simp [hm])
            · exact hb.2.2.2 m hm
          | deadRight =>
            refine ⟨hb.1, hb.2.1, fun m hm => ?_⟩
            simp only [Tree.after, if_true] at hm
            exact hb.2.2 m hm
      · rw [if_pos rfl]
        have hrnil : r = .nil := by
          cases r with
          | nil => rfl
          | node _ _ _ => cases hrN
        have hd : ∃ n' l' r', (Tree.node n l r).get [] = some (.node n' l' r') ∧ r' = .nil ∧ E.lt n'.mx k ∧
            ∀ m ∈ (Tree.node n l r).after [], E.lt k m.mn :=
          ⟨n, l, r, rfl, hrnil, h', by simp [Tree.after]⟩
        cases lb with
        | none => exact ⟨.at_ [] .deadRight, rfl, hd, by simp⟩
        | some x =>
          simp only
          by_cases hx : E.cmp k x = .lt
          · rw [if_neg (by simpa using hx)]
            exact ⟨.at_ [] .deadRight, rfl, hd, by
              intro _ y hy
              cases hy
              exact hx⟩
          · rw [if_pos hx]
            refine ⟨.back, rfl, ⟨x, rfl, le_of_not_lt hx⟩, ?_⟩
            intro m hm
            simp only [Tree.nodes, hrnil] at hm
            exact hgt m hm
    · rw [if_neg h]
      have hge : E.le k n.mx := h
      cases hlN : l.isNil
      · rw [if_neg (by simp)]
        obtain ⟨f, h1, h2⟩ := leftmost_spec k l (some n.mn) hlN hl
          (fun x hx m hm => by cases hx; exact hln m hm n List.mem_cons_self)
        rw [h1]
        cases f with
        | back =>
          refine ⟨.at_ [] .really, rfl, ⟨n, l, r, rfl, ?_, hge, ?_⟩, by simp⟩
          · obtain ⟨⟨x, e, hx⟩, _⟩ := h2
            cases e
            exact hx
          · intro m hm
            simp only [Tree.before, List.nil_append] at hm
            exact h2.2 m hm
        | at_ p b =>
          refine ⟨.at_ (false :: p) b, rfl, ?_⟩
          obtain ⟨⟨n', l', r', e, hb⟩, hx⟩ := h2
          cases b with
          | really =>
            refine ⟨⟨n', l', r', by simpa [Tree.get] using e, hb.1, hb.2.1, fun m hm => ?_⟩, by simp⟩
            simp only [Tree.before, Bool.false_eq_true, if_false] at hm
            exact hb.2.2 m hm
          | deadLeft =>
            refine ⟨⟨n', l', r', by simpa [Tree.get] using e, hb.1, hb.2.1, hb.2.2.1, fun m hm => ?_⟩, by simp⟩
            simp only [Tree.before, Bool.false_eq_true, if_false] at hm
            exact hb.2.2.2 m hm
          | deadRight =>
            have hnx : E.lt k n.mn := hx rfl n.mn rfl
            refine ⟨⟨n', l', r', by simpa [Tree.get] using e, hb.1, hb.2.1, fun m hm => ?_⟩, fun _ x hx' => ?_⟩
            · simp only [Tree.after, Bool.false_eq_true, if_false] at hm
              rcases List.mem_append.1 hm with hm | hm
              · exact hb.2.2 m hm
              · rcases List.mem_cons.1 hm with rfl | hm
                · exact hnx
                · exact lt_of_lt_of_le hnx (le_trans hmn ((List.pairwise_cons.1 hnr').1 m hm))
            · exact lt_of_lt_of_le hnx (le_trans hmn (hlb x hx' n hn))
      · rw [if_pos rfl]
        have hlnil : l = .nil := by
          cases l with
          | nil => rfl
          | node _ _ _ => cases hlN
        by_cases hx : E.cmp k n.mn = .lt
        · rw [if_neg (by simpa using hx)]
          exact ⟨.at_ [] .deadLeft, rfl, ⟨n, l, r, rfl, hlnil, hx, hge, by simp [Tree.before]⟩, by simp⟩
        · rw [if_pos hx]
          exact ⟨.at_ [] .really, rfl, ⟨n, l, r, rfl, le_of_not_lt hx, hge, by simp [Tree.before, hlnil, Tree.nodes]⟩, by simp⟩

end

/-! ### Balance -/

/-- the heights are right and differ by one at most -/
def Bal : Tree → Prop
  | .nil => True
  | .node n l r => n.lh = l.hgt ∧ n.rh = r.hgt ∧ n.lh ≤ n.rh + 1 ∧ n.rh ≤ n.lh + 1 ∧ Bal l ∧ Bal r

/-- nothing but heights, or the split into nodes, has changed -/
structure Same (E : Env) (ns ns' : List Node) : Prop where
  rows : rowsOf ns' = rowsOf ns
  ids : ns'.map Node.id = ns.map Node.id
  ok : (∀ n ∈ ns, NodeOk E n) → ∀ n ∈ ns', NodeOk E n

theorem Same.refl (E : Env) (ns : List Node) : Same E ns ns := ⟨rfl, rfl, id⟩

theorem Same.trans {E : Env} {a b c : List Node} (h : Same E a b) (h' : Same E b c) : Same E a c :=
  ⟨h'.rows.trans h.rows, h'.ids.trans h.ids, fun x => h'.ok (h.ok x)⟩

theorem Same.append {E : Env} {a a' b b' : List Node} (h : Same E a a') (h' : Same E b b') : Same E (a ++ b) (a' ++ b') := by
  refine ⟨by rw [rowsOf_append, rowsOf_append, h.rows, h'.rows], by rw [List.map_append, List.map_append, h.ids, h'.ids], ?_⟩
  intro ho n hn
  rcases List.mem_append.1 hn with hn | hn
  · exact h.ok (fun m hm => ho m (List.mem_append_left _ hm)) n hn
  · exact h'.ok (fun m hm => ho m (List.mem_append_right _ hm)) n hn

/-- a node with other heights -/
theorem Same.heights (E : Env) (n n' : Node) (hi : n'.id = n.id) (hv : n'.vals = n.vals) (h1 : n'.mn = n.mn) (h2 : n'.mx = n.mx) :
    Same E [n] [n'] := by
  refine ⟨by simp [rowsOf, hv], by simp [hi], ?_⟩
  intro h m hm
  cases List.mem_singleton.1 hm
  obtain ⟨a, b, c⟩ := h n (by simp)
  exact ⟨by rw [hv, h1]; exact a, by rw [hv, h2]; exact b, by rw [hv]; exact c⟩

theorem Same.hts (E : Env) (n : Node) (i j : Nat) : Same E [n] [{ n with lh := i, rh := j }] :=
  Same.heights E n _ rfl rfl rfl rfl

theorem Same.cons {E : Env} {a a' : Node} {b b' : List Node} (h : Same E [a] [a']) (h' : Same E b b') : Same E (a :: b) (a' :: b') :=
  h.append h'

theorem SOk.same {E : Env} {ns ns' : List Node} (h : SOk E ns) (hs : Same E ns ns') : SOk E ns' :=
  ⟨hs.ok h.ok, by rw [hs.rows]; exact h.srt⟩

theorem hgt_pos {n : Node} {l r : Tree} : 0 < (Tree.node n l r).hgt := by simp [Tree.hgt]

theorem hgt_nil {t : Tree} (h : t.hgt = 0) : t = .nil := by
  cases t with
  | nil => rfl
  | node n l r => simp [Tree.hgt] at h

theorem specialLR_same (E : Env) (b e : Node) :
    Same E ([b] ++ [e]) ([(specialLR E b e .nil .nil).1] ++ [(specialLR E b e .nil .nil).2]) := by
  unfold specialLR
  split
  · rename_i h
    obtain ⟨h1, -, -, h4⟩ := h
    match hb : b.vals, he : e.vals with
    | [], _ => simp [hb, cap] at h4
    | [x], _ => simp [hb, cap] at h4
    | x :: x' :: xs, [] => simp [he] at h1
    | x :: x' :: xs, y :: y' :: ys => simp [he] at h1
    | x :: x' :: xs, [y] =>
      refine ⟨by simp [rowsOf, hb, he], rfl, ?_⟩
      intro ho n hn
      have hob := ho b (by simp)
      have hoe := ho e (by simp)
      simp only [List.singleton_append, List.mem_cons, List.not_mem_nil, or_false] at hn
      rcases hn with rfl | rfl
      · have := hob.mn
        rw [hb] at this
        exact ⟨by simpa [hb] using this, by simpa [hb] using this, by simp [cap]⟩
      · have := hoe.mx
        rw [he] at this
        refine ⟨by simp [hb], ?_, ?_⟩
        · simp only [hb, he, List.tail_cons]
          rw [List.getLast?_append]
          simpa using this
        · rw [hb] at h4
          simp only [List.length_cons] at h4
          simp [hb, he]
          omega
  · exact Same.refl E _

theorem specialRL_same (E : Env) (b e : Node) :
    Same E ([e] ++ [b]) ([(specialRL E b e .nil .nil).2] ++ [(specialRL E b e .nil .nil).1]) := by
  unfold specialRL
  split
  · rename_i h
    obtain ⟨h1, -, -, h4⟩ := h
    have hbv : ∃ xs x, b.vals = xs ++ [x] ∧ xs.length = 7 := by
      rcases List.eq_nil_or_concat b.vals with hv | ⟨xs, x, hv⟩
      · simp [hv, cap] at h4
      · refine ⟨xs, x, by simpa using hv, ?_⟩
        rw [hv] at h4
        simpa [cap] using h4
    obtain ⟨xs, x, hb, hxs⟩ := hbv
    match he : e.vals with
    | [] => simp [he] at h1
    | y :: y' :: ys => simp [he] at h1
    | [y] =>
      have hd : b.vals.drop (cap - 1) = [x] := by
        rw [hb, List.drop_append, hxs]
        simp [cap, List.drop_eq_nil_of_le (Nat.le_of_eq hxs)]
      refine ⟨?_, rfl, ?_⟩
      · simp only [rowsOf, List.singleton_append, List.flatMap_cons, List.flatMap_nil, List.append_nil]
        rw [hd, hb]
        simp [he]
      intro ho n hn
      have hob := ho b (by simp)
      have hoe := ho e (by simp)
      simp only [List.singleton_append, List.mem_cons, List.not_mem_nil, or_false] at hn
      rcases hn with rfl | rfl
      · have := hoe.mn
        rw [he] at this
        refine ⟨by simpa [he] using this, ?_, ?_⟩
        · simp only [hb, he, List.dropLast_concat]
          cases hxx : xs.getLast? with
          | none =>
            rw [List.getLast?_eq_none_iff] at hxx
            simp [hxx] at hxs
          | some z =>
            rw [List.getLast?_cons, hxx]
            rfl
        · simp [hb, he, hxs, cap]
      · have := hob.mx
        rw [hb] at this
        exact ⟨by rw [hd]; simpa using this, by rw [hd]; simpa using this, by rw [hd]; simp [cap]⟩
  · exact Same.refl E _

theorem specialLR_heights (E : Env) (b e : Node) (el er : Tree) :
    (specialLR E b e el er).1.lh = b.lh ∧ (specialLR E b e el er).1.rh = b.rh := by
  unfold specialLR
  split <;> exact ⟨rfl, rfl⟩

theorem specialRL_heights (E : Env) (b e : Node) (el er : Tree) :
    (specialRL E b e el er).1.lh = b.lh ∧ (specialRL E b e el er).1.rh = b.rh := by
  unfold specialRL
  split <;> exact ⟨rfl, rfl⟩

/-- the special rotations move values between nodes that are next to each other -/
theorem specialLR_nodes (E : Env) (b e : Node) (el er : Tree) :
    Same E ([b] ++ el.nodes ++ [e]) ([(specialLR E b e el er).1] ++ el.nodes ++ [(specialLR E b e el er).2]) := by
  by_cases h : el.isNil = true ∧ er.isNil = true
  · cases el with
    | node _ _ _ => cases h.1
    | nil => cases er with
      | node _ _ _ => cases h.2
      | nil => simpa [Tree.nodes] using specialLR_same E b e
  · unfold specialLR
    rw [if_neg (fun hc => h ⟨hc.2.2.1, hc.2.1⟩)]
    exact Same.refl E _

theorem specialRL_nodes (E : Env) (b e : Node) (el er : Tree) :
    Same E ([e] ++ er.nodes ++ [b]) ([(specialRL E b e el er).2] ++ er.nodes ++ [(specialRL E b e el er).1]) := by
  by_cases h : el.isNil = true ∧ er.isNil = true
  · cases el with
    | node _ _ _ => cases h.1
    | nil => cases er with
      | node _ _ _ => cases h.2
      | nil => simpa [Tree.nodes] using specialRL_same E b e
  · unfold specialRL
    rw [if_neg (fun hc => h ⟨hc.2.2.1, hc.2.1⟩)]
    exact Same.refl E _

/-- a node that leans -/
def Tree.leans : Tree → Prop
  | .nil => False
  | .node n _ _ => n.lh ≠ n.rh

theorem rotate_left (E : Env) (a : Node) (al ar : Tree) (h1 : a.lh = al.hgt) (h2 : a.rh = ar.hgt) (bl : Bal al) (br : Bal ar)
    (hu : a.lh = a.rh + 2) :
    ∃ t', rotate E (.node a al ar) = some t' ∧ Bal t' ∧ Same E (Tree.node a al ar).nodes t'.nodes ∧
      a.lh ≤ t'.hgt ∧ t'.hgt ≤ a.lh + 1 ∧ (al.leans → t'.hgt = a.lh) := by
  simp only [rotate]
  rw [if_pos (by omega)]
  cases al with
  | nil => simp [Tree.hgt] at h1; omega
  | node b bl' br' =>
    simp only
    obtain ⟨b1, b2, b3, b4, b5, b6⟩ := bl
    simp only [Tree.hgt] at h1
    by_cases hb : b.lh ≥ b.rh
    · rw [if_pos hb]
      refine ⟨_, rfl, ?_, ?_, ?_⟩
      · simp only [rotLL, Bal, Tree.hgt]
        refine ⟨b1, trivial, ?_, ?_, b5, b2, h2, ?_, ?_, b6, br⟩ <;> omega
      · simp only [rotLL, Tree.nodes]
        simp only [List.append_assoc, List.cons_append]
        exact (Same.refl E _).append ((Same.hts E b _ _).cons ((Same.refl E _).append
          ((Same.hts E a _ _).cons (Same.refl E _))))
      · simp only [rotLL, Tree.hgt, Tree.leans]
        refine ⟨?_, ?_, ?_⟩ <;> omega
    · rw [if_neg hb]
      cases br' with
      | nil => simp [Tree.hgt] at b2; omega
      | node e el er =>
        simp only
        obtain ⟨e1, e2, e3, e4, e5, e6⟩ := b6
        simp only [Tree.hgt] at b2
        have hh := specialLR_heights E { b with rh := e.lh } e el er
        refine ⟨_, rfl, ?_, ?_, ?_⟩
        · simp only [rotLR, Bal, Tree.hgt]
          rw [hh.1, hh.2]
          simp only
          refine ⟨by omega, by omega, ?_, ?_, ⟨b1, e1, ?_, ?_, b5, e5⟩, e2, h2, ?_, ?_, e6, br⟩ <;> omega
        · simp only [rotLR, Tree.nodes]
          have := specialLR_nodes E { b with rh := e.lh } e el er
          have s1 : Same E ([b] ++ el.nodes ++ [e]) ([{ b with rh := e.lh }] ++ el.nodes ++ [e]) :=
            ((Same.hts E b _ _).append (Same.refl E _)).append (Same.refl E _)
          have s2 := s1.trans this
          have s3 := s2.trans (((Same.refl E _).append (Same.refl E _)).append (Same.heights E (specialLR E { b with rh := e.lh } e el er).2
            { (specialLR E { b with rh := e.lh } e el er).2 with
              lh := max (specialLR E { b with rh := e.lh } e el er).1.rh (specialLR E { b with rh := e.lh } e el er).1.lh + 1,
              rh := max a.rh e.rh + 1 } rfl rfl rfl rfl))
          have s4 := (Same.refl E bl'.nodes).append (s3.append ((Same.refl E er.nodes).append
            ((Same.heights E a { a with lh := e.rh } rfl rfl rfl rfl).cons (Same.refl E ar.nodes))))
          simpa only [List.append_assoc, List.cons_append, List.nil_append] using s4
        · simp only [rotLR, Tree.hgt, Tree.leans]
          rw [hh.1, hh.2]
          simp only
          refine ⟨?_, ?_, ?_⟩ <;> omega

theorem rotate_right (E : Env) (a : Node) (al ar : Tree) (h1 : a.lh = al.hgt) (h2 : a.rh = ar.hgt) (bl : Bal al) (br : Bal ar)
    (hu : a.rh = a.lh + 2) :
    ∃ t', rotate E (.node a al ar) = some t' ∧ Bal t' ∧ Same E (Tree.node a al ar).nodes t'.nodes ∧
      a.rh ≤ t'.hgt ∧ t'.hgt ≤ a.rh + 1 ∧ (ar.leans → t'.hgt = a.rh) := by
  simp only [rotate]
  rw [if_neg (by omega)]
  cases ar with
  | nil => simp [Tree.hgt] at h2; omega
  | node b bl' br' =>
    simp only
    obtain ⟨b1, b2, b3, b4, b5, b6⟩ := br
    simp only [Tree.hgt] at h2
    by_cases hb : b.lh > b.rh
    · rw [if_pos hb]
      cases bl' with
      | nil => simp [Tree.hgt] at b1; omega
      | node e el er =>
        simp only
        obtain ⟨e1, e2, e3, e4, e5, e6⟩ := b5
        simp only [Tree.hgt] at b1
        have hh := specialRL_heights E { b with lh := e.rh } e el er
        refine ⟨_, rfl, ?_, ?_, ?_⟩
        · simp only [rotRL, Bal, Tree.hgt]
          rw [hh.1, hh.2]
          simp only
          refine ⟨by omega, by omega, ?_, ?_, ⟨h1, e1, ?_, ?_, bl, e5⟩, e2, b2, ?_, ?_, e6, b6⟩ <;> omega
        · simp only [rotRL, Tree.nodes]
          have := specialRL_nodes E { b with lh := e.rh } e el er
          have s1 : Same E ([e] ++ er.nodes ++ [b]) ([e] ++ er.nodes ++ [{ b with lh := e.rh }]) :=
            ((Same.refl E _).append (Same.refl E _)).append (Same.hts E b _ _)
          have s2 := s1.trans this
          have s3 := s2.trans (((Same.heights E (specialRL E { b with lh := e.rh } e el er).2
            { (specialRL E { b with lh := e.rh } e el er).2 with
              rh := max (specialRL E { b with lh := e.rh } e el er).1.rh (specialRL E { b with lh := e.rh } e el er).1.lh + 1,
              lh := max e.lh a.lh + 1 } rfl rfl rfl rfl).append (Same.refl E _)).append (Same.refl E _))
          have s4 := (Same.refl E al.nodes).append ((Same.heights E a { a with rh := e.lh } rfl rfl rfl rfl).cons
            ((Same.refl E el.nodes).append (s3.append (Same.refl E br'.nodes))))
          simpa only [List.append_assoc, List.cons_append, List.nil_append] using s4
        · simp only [rotRL, Tree.hgt, Tree.leans]
          rw [hh.1, hh.2]
          simp only
          refine ⟨?_, ?_, ?_⟩ <;> omega
    · rw [if_neg hb]
      refine ⟨_, rfl, ?_, ?_, ?_⟩
      · simp only [rotRR, Bal, Tree.hgt]
        refine ⟨by omega, b2, ?_, ?_, ⟨h1, b1, ?_, ?_, bl, b5⟩, b6⟩ <;> omega
      · simp only [rotRR, Tree.nodes]
        simp only [List.append_assoc, List.cons_append]
        exact (Same.refl E _).append ((Same.hts E a _ _).cons ((Same.refl E _).append
          ((Same.hts E b _ _).cons (Same.refl E _))))
      · simp only [rotRR, Tree.hgt, Tree.leans]
        refine ⟨?_, ?_, ?_⟩ <;> omega

end Gkc.TTree
