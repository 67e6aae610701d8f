import Verif.Index
/-
C24: the literal index never misses a resolution partner.
-/
namespace Gkc.Props
open Gkc.Index Gkc.Term

/-! ### Prefixes of unifiable atoms -/

mutual
/-- symbols and variables of a term from left to right -/
def flat : Term → List (Nat ⊕ Const)
  | .var v => [.inl v]
  | .const c => [.inr c]
  | .app f as => .inr f :: flatL as
/-- the same for a list -/
def flatL : List Term → List (Nat ⊕ Const)
  | [] => []
  | a :: as => flat a ++ flatL as
end

/-- the constants before the first variable -/
def lead : List (Nat ⊕ Const) → List Const
  | .inr c :: l => c :: lead l
  | _ => []

theorem flatL_map_subst (θ : Nat → Term) (as : List Term)
    (ih : ∀ t ∈ as, ∃ f : Nat → List (Nat ⊕ Const), f = (fun v => flat (θ v)) ∧
      flat (subst θ t) = (flat t).flatMap (Sum.elim f (fun c => [.inr c]))) :
    flatL (as.map (subst θ)) = (flatL as).flatMap (Sum.elim (fun v => flat (θ v)) (fun c => [.inr c])) := by
  induction as with
  | nil => simp [flatL]
  | cons a as h =>
    obtain ⟨f, hf, e⟩ := ih a List.mem_cons_self
    subst hf
    simp only [List.map_cons, flatL, List.flatMap_append, e]
    rw [h fun t ht => ih t (List.mem_cons_of_mem _ ht)]

theorem flat_subst (θ : Nat → Term) (t : Term) :
    flat (subst θ t) = (flat t).flatMap (Sum.elim (fun v => flat (θ v)) (fun c => [.inr c])) := by
  induction t using Term.ind with
  | hv v => simp [flat]
  | hc c => simp [flat]
  | ha f as ih =>
    simp only [subst_app, flat, List.flatMap_cons, Sum.elim_inr]
    rw [flatL_map_subst θ as fun t ht => ⟨_, rfl, ih t ht⟩]
    rfl

theorem lead_prefix (f : Nat → List (Nat ⊕ Const)) : ∀ l : List (Nat ⊕ Const),
    lead l <+: lead (l.flatMap (Sum.elim f (fun c => [.inr c])))
  | [] => by simp [lead]
  | .inl v :: l => by simp [lead]
  | .inr c :: l => by
    simp only [lead, List.flatMap_cons, Sum.elim_inr, List.singleton_append, List.prefix_cons_inj]
    exact lead_prefix f l

/-- leading constants of atoms with a common instance -/
theorem lead_comparable {x y : Term} {θ τ : Nat → Term} (e : subst θ x = subst τ y) :
    lead (flat x) <+: lead (flat y) ∨ lead (flat y) <+: lead (flat x) := by
  have h1 := lead_prefix (fun v => flat (θ v)) (flat x)
  have h2 := lead_prefix (fun v => flat (τ v)) (flat y)
  rw [← flat_subst] at h1 h2
  rw [e] at h1
  exact List.prefix_or_prefix_of_prefix h1 h2

/-- running `leaf` along a list -/
def run (h : Const → BitVec 64) (s : PH) : List (Nat ⊕ Const) → PH × Bool
  | [] => (s, true)
  | .inl _ :: _ => (s, false)
  | .inr c :: l => match leaf h s (some c) with
    | (s, false) => (s, false)
    | (s, true) => run h s l

theorem run_append (h : Const → BitVec 64) : ∀ (l m : List (Nat ⊕ Const)) (s : PH),
    run h s (l ++ m) = match run h s l with
      | (s, false) => (s, false)
      | (s, true) => run h s m
  | [], m, s => by simp [run]
  | .inl v :: l, m, s => by simp [run]
  | .inr c :: l, m, s => by
    simp only [List.cons_append, run]
    rcases hl : leaf h s (some c) with ⟨s', b⟩
    cases b
    · rfl
    · exact run_append h l m s'

theorem prefL_run (h : Const → BitVec 64) : ∀ (as : List Term),
    (∀ t ∈ as, ∀ s, prefT h s t = run h s (flat t)) → ∀ s, prefL h s as = run h s (flatL as)
  | [], _, s => by simp [prefL, flatL, run]
  | a :: as, ih, s => by
    simp only [prefL, flatL, run_append, ih a List.mem_cons_self]
    rcases run h s (flat a) with ⟨s', b⟩
    cases b
    · rfl
    · exact prefL_run h as (fun t ht => ih t (List.mem_cons_of_mem _ ht)) s'

theorem prefT_run (h : Const → BitVec 64) (t : Term) : ∀ s, prefT h s t = run h s (flat t) := by
  induction t using Term.ind with
  | hv v => intro s; simp [prefT, flat, run, leaf]
  | hc c =>
    intro s
    simp only [prefT, flat, run]
    rcases leaf h s (some c) with ⟨s', b⟩
    cases b <;> rfl
  | ha f as ih =>
    intro s
    simp only [prefT, flat, run]
    rcases leaf h s (some f) with ⟨s', b⟩
    cases b
    · rfl
    · exact prefL_run h as ih s'

/-- what the prefix hashes are in terms of the leading constants -/
def phOf (h : Const → BitVec 64) : List Const → PH
  | [] => {}
  | [a] => ⟨1, h a, 0, 0⟩
  | [a, b] => ⟨2, h a, hashAdd (h b) (h a), 0⟩
  | a :: b :: c :: _ => ⟨3, h a, hashAdd (h b) (h a), hashAdd (h c) (hashAdd (h b) (h a))⟩

theorem run_phOf (h : Const → BitVec 64) (l : List (Nat ⊕ Const)) :
    (run h {} l).1 = phOf h (lead l) := by
  cases l with
  | nil => rfl
  | cons x l =>
    cases x with
    | inl v => rfl
    | inr a =>
      cases l with
      | nil => rfl
      | cons x l =>
        cases x with
        | inl v => rfl
        | inr b =>
          cases l with
          | nil => rfl
          | cons x l => cases x <;> rfl

theorem pref_eq (h : Const → BitVec 64) (x : Term) : pref h x = phOf h (lead (flat x)) := by
  rw [pref, prefT_run, run_phOf]

theorem phOf_zero (h : Const → BitVec 64) {l : List Const} (hl : l ≠ []) : (phOf h l).n ≠ 0 := by
  match l, hl with
  | [a], _ => simp [phOf]
  | [a, b], _ => simp [phOf]
  | a :: b :: c :: _, _ => simp [phOf]

/-- unifiable atoms share a bucket -/
theorem common_key (h : Const → BitVec 64) {x y : Term} (hx : isRec x = true) (hy : isRec y = true)
    {θ τ : Nat → Term} (e : subst θ x = subst τ y) : ∃ k ∈ storeKeys h x, k ∈ queryKeys h y := by
  have hlx : lead (flat x) ≠ [] := by
    cases x with
    | app f as => simp [flat, lead]
    | _ => simp [isRec] at hx
  have hly : lead (flat y) ≠ [] := by
    cases y with
    | app f as => simp [flat, lead]
    | _ => simp [isRec] at hy
  have hc := lead_comparable e
  simp only [storeKeys, queryKeys, pref_eq]
  generalize lead (flat x) = l at *
  generalize lead (flat y) = m at *
  match l, m, hlx, hly with
  | [a], [a'], _, _ =>
    have : a = a' := by rcases hc with ⟨_, h⟩ | ⟨_, h⟩ <;> simp_all
    subst this
    exact ⟨_, List.mem_map.2 ⟨0, by simp [phOf], rfl⟩, by simp [phOf, PH.at]⟩
  | [a], [a', b'], _, _ =>
    have : a = a' := by rcases hc with ⟨_, h⟩ | ⟨_, h⟩ <;> simp_all
    subst this
    exact ⟨_, List.mem_map.2 ⟨0, by simp [phOf], rfl⟩, by simp [phOf, PH.at]⟩
  | [a], a' :: b' :: c' :: _, _, _ =>
    have : a = a' := by rcases hc with ⟨_, h⟩ | ⟨_, h⟩ <;> simp_all
    subst this
    exact ⟨_, List.mem_map.2 ⟨0, by simp [phOf], rfl⟩, by simp [phOf, PH.at]⟩
  | [a, b], [a'], _, _ =>
    have : a = a' := by rcases hc with ⟨_, h⟩ | ⟨_, h⟩ <;> simp_all
    subst this
    exact ⟨_, List.mem_map.2 ⟨0, by simp [phOf], rfl⟩, by simp [phOf, PH.at]⟩
  | [a, b], [a', b'], _, _ =>
    have : a = a' ∧ b = b' := by rcases hc with ⟨_, h⟩ | ⟨_, h⟩ <;> simp_all
    obtain ⟨rfl, rfl⟩ := this
    exact ⟨_, List.mem_map.2 ⟨1, by simp [phOf], rfl⟩, by simp [phOf, PH.at]⟩
  | [a, b], a' :: b' :: c' :: _, _, _ =>
    have : a = a' ∧ b = b' := by rcases hc with ⟨_, h⟩ | ⟨_, h⟩ <;> simp_all
    obtain ⟨rfl, rfl⟩ := this
    exact ⟨_, List.mem_map.2 ⟨1, by simp [phOf], rfl⟩, by simp [phOf, PH.at]⟩
  | a :: b :: c :: _, [a'], _, _ =>
    have : a = a' := by rcases hc with ⟨_, h⟩ | ⟨_, h⟩ <;> simp_all
    subst this
    exact ⟨_, List.mem_map.2 ⟨0, by simp [phOf], rfl⟩, by simp [phOf, PH.at]⟩
  | a :: b :: c :: _, [a', b'], _, _ =>
    have : a = a' ∧ b = b' := by rcases hc with ⟨_, h⟩ | ⟨_, h⟩ <;> simp_all
    obtain ⟨rfl, rfl⟩ := this
    exact ⟨_, List.mem_map.2 ⟨1, by simp [phOf], rfl⟩, by simp [phOf, PH.at]⟩
  | a :: b :: c :: _, a' :: b' :: c' :: _, _, _ =>
    have : a = a' ∧ b = b' ∧ c = c' := by rcases hc with ⟨_, h⟩ | ⟨_, h⟩ <;> simp_all
    obtain ⟨rfl, rfl, rfl⟩ := this
    exact ⟨_, List.mem_map.2 ⟨2, by simp [phOf], rfl⟩, by simp [phOf, PH.at]⟩

/-! ### The chains -/

/-- the chain from an address on; `H` are the head nodes -/
inductive Chain (H : Nat → Prop) (mem : List Node) : Nat → List (Term × Nat × Nat) → Prop
  | nil : Chain H mem 0 []
  | cons {a : Nat} {l : List (Term × Nat × Nat)} : 0 < a → a ≤ mem.length → ¬ H a →
      (node mem a).next < a → Chain H mem (node mem a).next l →
      Chain H mem a (((node mem a).term, (node mem a).cl, (node mem a).path) :: l)

theorem Chain.mono {H H' : Nat → Prop} {mem mem' : List Node} (hl : mem.length ≤ mem'.length)
    (hm : ∀ a, 0 < a → a ≤ mem.length → ¬ H a → node mem' a = node mem a ∧ ¬ H' a) :
    ∀ {a l}, Chain H mem a l → Chain H' mem' a l := by
  intro a l hc
  induction hc with
  | nil => exact .nil
  | cons h1 h2 h3 h4 _ ih =>
    obtain ⟨e, h5⟩ := hm _ h1 h2 h3
    rw [← e] at ih h4 ⊢
    exact .cons h1 (Nat.le_trans h2 hl) h5 h4 ih

theorem Chain.walk {H : Nat → Prop} {mem : List Node} : ∀ {a l}, Chain H mem a l → ∀ n, a ≤ n →
    walk mem n a = some l := by
  intro a l hc
  induction hc with
  | nil => intro n _; cases n <;> simp [Index.walk]
  | @cons a l h1 _ _ h4 _ ih =>
    intro n hn
    cases n with
    | zero => omega
    | succ n =>
      simp only [Index.walk, if_neg (by omega : ¬ a = 0), ih n (by omega), Option.map_some]

theorem Chain.le {H : Nat → Prop} {mem : List Node} {a : Nat} {l} (h : Chain H mem a l) : a ≤ mem.length := by
  cases h with
  | nil => omega
  | cons _ h _ _ _ => exact h

theorem Chain.zero {H : Nat → Prop} {mem : List Node} {a : Nat} {l} (h : Chain H mem a l) (e : a = 0) : l = [] := by
  cases h with
  | nil => rfl
  | cons h _ _ _ _ => omega

/-- the head nodes -/
def Heads (ix : Ix) (a : Nat) : Prop := a ≠ 0 ∧ ∃ g k, ix.cells g k = a

/-- the state holds exactly `ct g k` in the chain of sign `g` and bucket `k` -/
structure IxHolds (ix : Ix) (ct : Bool → Nat → List (Term × Nat × Nat)) : Prop where
  empty : ∀ g k, ix.cells g k = 0 → ct g k = []
  cell : ∀ g k, ix.cells g k ≠ 0 → ix.cells g k ≤ ix.mem.length ∧
    (node ix.mem (ix.cells g k)).len = (ct g k).length ∧ ct g k ≠ [] ∧
    Chain (Heads ix) ix.mem (node ix.mem (ix.cells g k)).next (ct g k)
  inj : ∀ g k g' k', ix.cells g k ≠ 0 → ix.cells g k = ix.cells g' k' → g = g' ∧ k = k'

theorem holds_empty : IxHolds Ix.empty (fun _ _ => []) :=
  ⟨fun _ _ _ => rfl, fun _ _ h => absurd rfl h, fun _ _ _ _ h => absurd rfl h⟩

/-- the contents after adding at one place -/
def addCt (ct : Bool → Nat → List (Term × Nat × Nat)) (sg : Bool) (hash : Nat) (e : Term × Nat × Nat) :
    Bool → Nat → List (Term × Nat × Nat) :=
  fun g k => if g = sg ∧ k = hash then e :: ct g k else ct g k

theorem node_append {mem m : List Node} {a : Nat} (h1 : 0 < a) (h2 : a ≤ mem.length) :
    node (mem ++ m) a = node mem a := by
  simp only [node, List.getD_eq_getElem?_getD]
  rw [List.getElem?_append_left (by omega)]

theorem node_set {mem : List Node} {a b : Nat} {n : Node} (h1 : 0 < a) (h2 : a ≠ b) (hb : 0 < b) :
    node (setNode mem b n) a = node mem a := by
  simp only [node, setNode, List.getD_eq_getElem?_getD]
  rw [List.getElem?_set_ne (by omega)]

theorem node_set_self {mem : List Node} {b : Nat} {n : Node} (hb : 0 < b) (hl : b ≤ mem.length) :
    node (setNode mem b n) b = n := by
  simp only [node, setNode, List.getD_eq_getElem?_getD]
  rw [List.getElem?_set_self (by omega)]
  rfl

theorem add_holds {cap : Nat} {ix ix' : Ix} {ct} {sg : Bool} {hash : Nat} {t : Term} {c w : Nat}
    (hi : IxHolds ix ct) (h : add cap ix sg hash t c w = some ix') :
    IxHolds ix' (addCt ct sg hash (t, c, w)) := by
  simp only [add] at h
  split at h
  · cases h
  rename_i hr
  split at h
  · rename_i hz
    split at h
    · cases h
    injection h with h
    subst h
    have hct := hi.empty sg hash hz
    have old : ∀ a, 0 < a → a ≤ ix.mem.length → ∀ m, node (ix.mem ++ m) a = node ix.mem a :=
      fun a h1 h2 m => node_append h1 h2
    have hcell : ∀ g k, ix.cells g k ≤ ix.mem.length := fun g k => by
      rcases Nat.eq_zero_or_pos (ix.cells g k) with h | h
      · omega
      · exact (hi.cell g k (by omega)).1
    refine ⟨?_, ?_, ?_⟩
    · intro g k e
      simp only at e
      split at e
      · omega
      · rename_i hne
        simp only [addCt, if_neg hne]
        exact hi.empty g k e
    · intro g k hne
      simp only at hne ⊢
      split
      · rename_i hgk
        obtain ⟨rfl, rfl⟩ := hgk
        simp only [addCt, and_self, if_true, hct]
        have e1 : node (ix.mem ++ [({ len := 1, next := ix.mem.length + 2 } : Node),
            { term := t, cl := c, path := w, next := 0 }]) (ix.mem.length + 1) = { len := 1, next := ix.mem.length + 2 } := by
          simp [node, List.getD_eq_getElem?_getD]
        have e2 : node (ix.mem ++ [({ len := 1, next := ix.mem.length + 2 } : Node),
            { term := t, cl := c, path := w, next := 0 }]) (ix.mem.length + 2) = { term := t, cl := c, path := w, next := 0 } := by
          simp [node, List.getD_eq_getElem?_getD]
        refine ⟨by simp, by rw [e1]; rfl, by simp, ?_⟩
        rw [e1]
        show Chain _ _ (ix.mem.length + 2) _
        have := Chain.cons (H := Heads ⟨fun g' k' => if g' = g ∧ k' = k then ix.mem.length + 1 else ix.cells g' k',
            ix.mem ++ [({ len := 1, next := ix.mem.length + 2 } : Node), { term := t, cl := c, path := w, next := 0 }]⟩)
          (mem := ix.mem ++ [({ len := 1, next := ix.mem.length + 2 } : Node), { term := t, cl := c, path := w, next := 0 }])
          (a := ix.mem.length + 2) (l := []) (by omega) (by simp) (by
            rintro ⟨_, g', k', e⟩
            simp only at e
            split at e
            · omega
            · have := hcell g' k'; omega) (by rw [e2]; simp) (by rw [e2]; exact .nil)
        rw [e2] at this
        exact this
      · rename_i hgk
        simp only [hgk, if_false] at hne
        obtain ⟨h1, h2, h3, h4⟩ := hi.cell g k hne
        simp only [addCt, if_neg hgk]
        rw [old _ (by omega) h1]
        refine ⟨by simp; omega, h2, h3, h4.mono (by simp) ?_⟩
        intro a ha1 ha2 hH
        refine ⟨old _ ha1 ha2 _, ?_⟩
        rintro ⟨_, g', k', e⟩
        simp only at e
        split at e
        · omega
        · exact hH ⟨by omega, g', k', e⟩
    · intro g k g' k' hne e
      simp only at hne e
      split at e <;> split at e
      · rename_i h1 h2; exact ⟨h1.1.trans h2.1.symm, h1.2.trans h2.2.symm⟩
      · have := hcell g' k'; omega
      · have := hcell g k; omega
      · rename_i h1 _
        simp only [h1, if_false] at hne
        exact hi.inj g k g' k' hne e
  · rename_i hz
    split at h
    · cases h
    injection h with h
    subst h
    obtain ⟨c1, c2, c3, c4⟩ := hi.cell sg hash hz
    have hb : 0 < ix.cells sg hash := by omega
    have hlen : ∀ n, (setNode ix.mem (ix.cells sg hash) n).length = ix.mem.length := by simp [setNode]
    have old : ∀ n m a, 0 < a → a ≤ ix.mem.length → a ≠ ix.cells sg hash →
        node (setNode ix.mem (ix.cells sg hash) n ++ m) a = node ix.mem a := fun n m a h1 h2 h3 => by
      rw [node_append h1 (by rw [hlen]; exact h2), node_set h1 h3 hb]
    refine ⟨?_, ?_, hi.inj⟩
    · intro g k e
      have : ¬ (g = sg ∧ k = hash) := by rintro ⟨rfl, rfl⟩; exact hz e
      simp only [addCt, if_neg this]
      exact hi.empty g k e
    · intro g k hne
      simp only at hne ⊢
      have mono : ∀ {a l}, Chain (Heads ix) ix.mem a l →
          Chain (Heads ⟨ix.cells, setNode ix.mem (ix.cells sg hash)
            { node ix.mem (ix.cells sg hash) with len := (node ix.mem (ix.cells sg hash)).len + 1, next := ix.mem.length + 1 }
            ++ [{ term := t, cl := c, path := w, next := (node ix.mem (ix.cells sg hash)).next }]⟩)
          (setNode ix.mem (ix.cells sg hash)
            { node ix.mem (ix.cells sg hash) with len := (node ix.mem (ix.cells sg hash)).len + 1, next := ix.mem.length + 1 }
            ++ [{ term := t, cl := c, path := w, next := (node ix.mem (ix.cells sg hash)).next }]) a l := by
        intro a l hc
        refine hc.mono (by simp [hlen]) ?_
        intro a h1 h2 hH
        refine ⟨old _ _ _ h1 h2 ?_, hH⟩
        rintro rfl
        exact hH ⟨by omega, sg, hash, rfl⟩
      by_cases hgk : g = sg ∧ k = hash
      · obtain ⟨rfl, rfl⟩ := hgk
        simp only [addCt, and_self, if_true]
        have e1 : ∀ n m, node (setNode ix.mem (ix.cells g k) n ++ m) (ix.cells g k) = n := fun n m => by
          rw [node_append hb (by rw [hlen]; exact c1), node_set_self hb c1]
        have e2 : ∀ n m, node (setNode ix.mem (ix.cells g k) n ++ [m]) (ix.mem.length + 1) = m := fun n m => by
          simp [node, List.getD_eq_getElem?_getD, setNode]
        rw [e1]
        refine ⟨by simp [hlen]; omega, by simp [c2], by simp, ?_⟩
        show Chain _ _ (ix.mem.length + 1) _
        have c5 := mono c4
        have hlt : (node ix.mem (ix.cells g k)).next ≤ ix.mem.length := c4.le
        generalize hM : setNode ix.mem (ix.cells g k)
            { node ix.mem (ix.cells g k) with len := (node ix.mem (ix.cells g k)).len + 1, next := ix.mem.length + 1 }
            ++ [{ term := t, cl := c, path := w, next := (node ix.mem (ix.cells g k)).next }] = M at *
        have e3 : node M (ix.mem.length + 1) = { term := t, cl := c, path := w, next := (node ix.mem (ix.cells g k)).next } := by
          rw [← hM]; exact e2 _ _
        have hML : M.length = ix.mem.length + 1 := by rw [← hM]; simp [hlen]
        have := Chain.cons (H := Heads ⟨ix.cells, M⟩) (mem := M) (a := ix.mem.length + 1) (l := ct g k)
          (by omega) (by omega) (by
            rintro ⟨hn, g', k', e⟩
            simp only at e
            have := (hi.cell g' k' (by omega)).1
            omega) (by rw [e3]; show (node ix.mem (ix.cells g k)).next < _; omega) (by rw [e3]; exact c5)
        rw [e3] at this
        exact this
      · simp only [addCt, if_neg hgk]
        obtain ⟨h1, h2, h3, h4⟩ := hi.cell g k hne
        rw [old _ _ _ (by omega) h1 (fun e => hgk (hi.inj g k sg hash hne e))]
        exact ⟨by simp [hlen]; omega, h2, h3, mono h4⟩

/-- contents after storing under several keys -/
theorem addKeys_holds {cap : Nat} {sg : Bool} {t : Term} {c : Nat} : ∀ {ks : List (Option Nat)} {ix ix' : Ix} {ct},
    IxHolds ix ct → addKeys cap ix sg t c ks = some ix' → ∃ ct', IxHolds ix' ct' ∧
      (∀ g k, ct g k ⊆ ct' g k) ∧ (∀ k, some k ∈ ks → (t, c, 0) ∈ ct' sg k) ∧
      (∀ g k e, e ∈ ct' g k → e ∈ ct g k ∨ (g = sg ∧ e = (t, c, 0))) ∧ (∀ k ∈ ks, k ≠ none)
  | [], ix, ix', ct, hi, h => by
    simp only [addKeys, Option.some.injEq] at h
    subst h
    exact ⟨ct, hi, fun _ _ => List.Subset.refl _, by simp, fun _ _ _ h => .inl h, by simp⟩
  | none :: _, ix, ix', ct, hi, h => by simp [addKeys] at h
  | some k :: ks, ix, ix', ct, hi, h => by
    simp only [addKeys] at h
    rcases ha : add cap ix sg k t c 0 with _ | ix1
    · simp [ha] at h
    rw [ha] at h
    obtain ⟨ct', h1, h2, h3, h4, h5⟩ := addKeys_holds (add_holds hi ha) h
    refine ⟨ct', h1, ?_, ?_, ?_, ?_⟩
    · intro g k' e he
      apply h2 g k'
      simp only [addCt]
      split
      · exact List.mem_cons_of_mem _ he
      · exact he
    · intro k' hk'
      rcases List.mem_cons.1 hk' with e | hk'
      · injection e with e
        subst e
        exact h2 sg k' (by simp [addCt])
      · exact h3 k' hk'
    · intro g k' e he
      rcases h4 g k' e he with he | he
      · simp only [addCt] at he
        split at he
        · rename_i hgk
          rcases List.mem_cons.1 he with rfl | he
          · exact .inr ⟨hgk.1, rfl⟩
          · exact .inl he
        · exact .inl he
      · exact .inr he
    · intro k' hk'
      rcases List.mem_cons.1 hk' with rfl | hk'
      · simp
      · exact h5 k' hk'

/-- looking into one bucket -/
theorem bucket_holds {ix : Ix} {ct} (hi : IxHolds ix ct) (sg : Bool) {k : Nat} (hk : 1 ≤ k ∧ k < vecEls) :
    bucket ix sg (some k) = some (ct sg k) := by
  simp only [bucket]
  rw [if_neg (by omega)]
  split
  · rename_i hz; rw [hi.empty sg k hz]
  · rename_i hz
    obtain ⟨h1, h2, h3, h4⟩ := hi.cell sg k hz
    have h5 : (node ix.mem (ix.cells sg k)).len ≠ 0 := by
      rw [h2]
      intro e
      exact h3 (List.eq_nil_of_length_eq_zero e)
    rw [if_neg h5]
    split
    · rename_i h6
      exact absurd (h4.zero h6) h3
    · exact h4.walk _ h4.le

theorem hashNorm_range {x : BitVec 64} {k : Nat} (h : hashNorm x = some k) : 1 ≤ k ∧ k < vecEls := by
  simp only [hashNorm] at h
  split at h
  · cases h
  · injection h with h
    have : vecEls = 1000000 := rfl
    have := Nat.mod_lt (BitVec.toInt (BitVec.truncate 32 x)).natAbs (by rw [this]; decide : vecEls - 2 > 0)
    omega

theorem queryKeys_range {h : Const → BitVec 64} {x : Term} {k : Nat} (hk : some k ∈ queryKeys h x) :
    1 ≤ k ∧ k < vecEls := by
  simp only [queryKeys, List.mem_map] at hk
  obtain ⟨plen, _, hk⟩ := hk
  split at hk
  · exact hashNorm_range hk
  · split at hk
    · split at hk <;> exact hashNorm_range hk
    · exact hashNorm_range hk

/-! ### The property -/

/-- storing clauses one after another; a clause is its number, its literals and the flags of
resolvable literals -/
def storeAll (h : Const → BitVec 64) (cap : Nat) (qf : Bool) : Ix → List (Nat × List (Bool × Lit)) → Option Ix
  | ix, [] => some ix
  | ix, (c, ls) :: cs => (storeCl h cap qf c ix ls).bind fun ix => storeAll h cap qf ix cs

/-- literal `l` of clause `c` was to be stored -/
def ToStore (qf : Bool) (cs : List (Nat × List (Bool × Lit))) (c : Nat) (l : Lit) : Prop :=
  ∃ ls r, (c, ls) ∈ cs ∧ (r, l) ∈ ls ∧ (r = true ∨ qf = true) ∧ ∃ p as, l.atom = .app p as

theorem storeCl_holds {h : Const → BitVec 64} {cap : Nat} {qf : Bool} {c : Nat} :
    ∀ {ls : List (Bool × Lit)} {ix ix' : Ix} {ct}, IxHolds ix ct → storeCl h cap qf c ix ls = some ix' →
      ∃ ct', IxHolds ix' ct' ∧ (∀ g k, ct g k ⊆ ct' g k) ∧
        (∀ r l, (r, l) ∈ ls → (r = true ∨ qf = true) → isRec l.atom = true →
          ∀ k ∈ storeKeys h l.atom, ∃ k', k = some k' ∧ (l.atom, c, 0) ∈ ct' l.neg k') ∧
        (∀ g k e, e ∈ ct' g k → e ∈ ct g k ∨
          ∃ r l, (r, l) ∈ ls ∧ (r = true ∨ qf = true) ∧ isRec l.atom = true ∧ l.neg = g ∧ e = (l.atom, c, 0))
  | [], ix, ix', ct, hi, hs => by
    simp only [storeCl, Option.some.injEq] at hs
    subst hs
    exact ⟨ct, hi, fun _ _ => List.Subset.refl _, by simp, fun _ _ _ h => .inl h⟩
  | (r, l) :: ls, ix, ix', ct, hi, hs => by
    simp only [storeCl] at hs
    have skip : ¬ ((r = true ∨ qf = true) ∧ isRec l.atom = true) → storeCl h cap qf c ix ls = some ix' →
        ∃ ct', IxHolds ix' ct' ∧ (∀ g k, ct g k ⊆ ct' g k) ∧
        (∀ r' l', (r', l') ∈ (r, l) :: ls → (r' = true ∨ qf = true) → isRec l'.atom = true →
          ∀ k ∈ storeKeys h l'.atom, ∃ k', k = some k' ∧ (l'.atom, c, 0) ∈ ct' l'.neg k') ∧
        (∀ g k e, e ∈ ct' g k → e ∈ ct g k ∨
          ∃ r' l', (r', l') ∈ (r, l) :: ls ∧ (r' = true ∨ qf = true) ∧ isRec l'.atom = true ∧
            l'.neg = g ∧ e = (l'.atom, c, 0)) := by
      intro hno hs
      obtain ⟨ct', h1, h2, h3, h4⟩ := storeCl_holds hi hs
      refine ⟨ct', h1, h2, ?_, ?_⟩
      · intro r' l' hm hr hrec
        rcases List.mem_cons.1 hm with e | hm
        · injection e with e1 e2
          subst e1; subst e2
          exact absurd ⟨hr, hrec⟩ hno
        · exact h3 r' l' hm hr hrec
      · intro g k e he
        rcases h4 g k e he with h | ⟨r', l', hm, h⟩
        · exact .inl h
        · exact .inr ⟨r', l', List.mem_cons_of_mem _ hm, h⟩
    split at hs
    · rename_i hrq
      exact skip (fun hh => by rcases hh.1 with h | h <;> simp [h] at hrq) hs
    split at hs
    · rename_i hrec
      exact skip (fun hh => by simp [hh.2] at hrec) hs
    · rename_i hrq hrec
      rcases ha : addKeys cap ix l.neg l.atom c (storeKeys h l.atom) with _ | ix1
      · simp [ha] at hs
      rw [ha] at hs
      obtain ⟨ct1, g1, g2, g3, g4, g5⟩ := addKeys_holds hi ha
      obtain ⟨ct', h1, h2, h3, h4⟩ := storeCl_holds g1 hs
      refine ⟨ct', h1, fun g k => List.Subset.trans (g2 g k) (h2 g k), ?_, ?_⟩
      · intro r' l' hm hr hrec' k hk
        rcases List.mem_cons.1 hm with e | hm
        · injection e with e1 e2
          subst e1; subst e2
          cases k with
          | none => exact absurd rfl (g5 _ hk)
          | some k => exact ⟨k, rfl, h2 _ _ (g3 k hk)⟩
        · exact h3 r' l' hm hr hrec' k hk
      · intro g k e he
        rcases h4 g k e he with he | ⟨r', l', hm, he⟩
        · rcases g4 g k e he with he | ⟨rfl, rfl⟩
          · exact .inl he
          · refine .inr ⟨r, l, List.mem_cons_self, ?_, by simpa using hrec, rfl, rfl⟩
            cases r <;> cases qf <;> simp_all
        · exact .inr ⟨r', l', List.mem_cons_of_mem _ hm, he⟩

theorem storeAll_holds {h : Const → BitVec 64} {cap : Nat} {qf : Bool} :
    ∀ {cs : List (Nat × List (Bool × Lit))} {ix ix' : Ix} {ct}, IxHolds ix ct →
      storeAll h cap qf ix cs = some ix' →
      ∃ ct', IxHolds ix' ct' ∧ (∀ g k, ct g k ⊆ ct' g k) ∧
        (∀ c l, ToStore qf cs c l →
          ∀ k ∈ storeKeys h l.atom, ∃ k', k = some k' ∧ (l.atom, c, 0) ∈ ct' l.neg k') ∧
        (∀ g k e, e ∈ ct' g k → e ∈ ct g k ∨ ∃ l, ToStore qf cs e.2.1 l ∧ l.neg = g ∧ l.atom = e.1)
  | [], ix, ix', ct, hi, hs => by
    simp only [storeAll, Option.some.injEq] at hs
    subst hs
    refine ⟨ct, hi, fun _ _ => List.Subset.refl _, ?_, fun _ _ _ h => .inl h⟩
    rintro c l ⟨ls, r, hm, _⟩
    cases hm
  | (c, ls) :: cs, ix, ix', ct, hi, hs => by
    simp only [storeAll] at hs
    rcases ha : storeCl h cap qf c ix ls with _ | ix1
    · simp [ha] at hs
    rw [ha] at hs
    obtain ⟨ct1, g1, g2, g3, g4⟩ := storeCl_holds hi ha
    obtain ⟨ct', h1, h2, h3, h4⟩ := storeAll_holds g1 hs
    refine ⟨ct', h1, fun g k => List.Subset.trans (g2 g k) (h2 g k), ?_, ?_⟩
    · rintro c' l ⟨ls', r, hm, hl, hr, p, as, ea⟩ k hk
      rcases List.mem_cons.1 hm with e | hm
      · injection e with e1 e2
        subst e1; subst e2
        obtain ⟨k', ek, hk'⟩ := g3 r l hl hr (by rw [ea]; rfl) k hk
        exact ⟨k', ek, h2 _ _ hk'⟩
      · exact h3 c' l ⟨ls', r, hm, hl, hr, p, as, ea⟩ k hk
    · intro g k e he
      rcases h4 g k e he with he | ⟨l, ⟨ls', r, hm, hl⟩, he⟩
      · rcases g4 g k e he with he | ⟨r, l, hl, hr, hrec, hg, he⟩
        · exact .inl he
        · subst he
          refine .inr ⟨l, ⟨ls, r, List.mem_cons_self, hl, hr, ?_⟩, hg, rfl⟩
          revert hrec
          cases l.atom with
          | app p as => intro _; exact ⟨p, as, rfl⟩
          | _ => simp [isRec]
      · exact .inr ⟨l, ⟨ls', r, List.mem_cons_of_mem _ hm, hl⟩, he⟩

theorem foldr_buckets {ix : Ix} {ct} (hi : IxHolds ix ct) (sg : Bool) : ∀ {ks : List (Option Nat)} {r},
    (∀ k, some k ∈ ks → 1 ≤ k ∧ k < vecEls) →
    ks.foldr (fun k r => (bucket ix sg k).bind fun b => r.map (b ++ ·)) (some []) = some r →
    (∀ e, e ∈ r ↔ ∃ k, some k ∈ ks ∧ e ∈ ct sg k)
  | [], r, _, h => by
    simp only [List.foldr_nil, Option.some.injEq] at h
    subst h
    simp
  | none :: ks, r, _, h => by simp [bucket] at h
  | some k :: ks, r, hr, h => by
    simp only [List.foldr_cons, bucket_holds hi sg (hr k List.mem_cons_self), Option.bind_some,
      Option.map_eq_some_iff] at h
    obtain ⟨r', h1, h2⟩ := h
    subst h2
    have := foldr_buckets hi sg (fun k hk => hr k (List.mem_cons_of_mem _ hk)) h1
    intro e
    simp only [List.mem_append, this e, List.mem_cons]
    constructor
    · rintro (h | ⟨k', h1, h2⟩)
      · exact ⟨k, .inl rfl, h⟩
      · exact ⟨k', .inr h1, h2⟩
    · rintro ⟨k', h1 | h1, h2⟩
      · injection h1 with h1
        subst h1
        exact .inl h2
      · exact .inr ⟨k', h1, h2⟩

/-- C24.  Store any sequence of clauses in the index and then look up the partners of a literal
with a predicate.  If neither stopped with an error, every stored literal of the opposite sign
whose atom has a common instance with the atom of the literal is among the candidates, with its
clause. -/
theorem C24_index_complete_partial {h : Const → BitVec 64} {cap : Nat} {qf : Bool}
    {cs : List (Nat × List (Bool × Lit))} {ix : Ix} (hs : storeAll h cap qf .empty cs = some ix)
    {x : Lit} {p : Const} {as : List Term} (hx : x.atom = .app p as)
    {r : List (Term × Nat × Nat)} (hl : lookup h ix x = some r)
    {c : Nat} {y : Lit} (hy : ToStore qf cs c y) (hsg : y.neg ≠ x.neg)
    {θ τ : Nat → Term} (hu : subst θ y.atom = subst τ x.atom) : (y.atom, c, 0) ∈ r := by
  obtain ⟨ct, h1, _, h3, _⟩ := storeAll_holds holds_empty hs
  have hyr : isRec y.atom = true := by
    obtain ⟨_, _, _, _, _, p, as, e⟩ := hy
    rw [e]; rfl
  obtain ⟨k, hk1, hk2⟩ := common_key h hyr (by rw [hx]; rfl : isRec x.atom = true) hu
  obtain ⟨k', rfl, hm⟩ := h3 c y hy k hk1
  have hneg : y.neg = !x.neg := by
    revert hsg
    cases y.neg <;> cases x.neg <;> simp
  rw [hneg] at hm
  exact (foldr_buckets h1 (!x.neg) (fun k hk => queryKeys_range hk) hl _).2 ⟨k', hk2, hm⟩

/-- C24.  Everything offered as a candidate was stored, from a literal of the opposite sign of the
clause it is offered with. -/
theorem C24_index_sound {h : Const → BitVec 64} {cap : Nat} {qf : Bool}
    {cs : List (Nat × List (Bool × Lit))} {ix : Ix} (hs : storeAll h cap qf .empty cs = some ix)
    {x : Lit} {r : List (Term × Nat × Nat)} (hl : lookup h ix x = some r) {t : Term} {c w : Nat} (hm : (t, c, w) ∈ r) :
    ∃ y : Lit, ToStore qf cs c y ∧ y.neg ≠ x.neg ∧ y.atom = t := by
  obtain ⟨ct, h1, _, _, h4⟩ := storeAll_holds holds_empty hs
  obtain ⟨k, _, hk⟩ := (foldr_buckets h1 (!x.neg) (fun k hk => queryKeys_range hk) hl _).1 hm
  rcases h4 _ _ _ hk with h | ⟨y, hy, hg, e⟩
  · cases h
  · exact ⟨y, hy, by rw [hg]; cases x.neg <;> simp, e⟩

/-- C24.  A lookup in an index built without an error ends, and it stops with an error only if
one of the three bucket numbers of the literal does not exist. -/
theorem C24_lookup_ends {h : Const → BitVec 64} {cap : Nat} {qf : Bool}
    {cs : List (Nat × List (Bool × Lit))} {ix : Ix} (hs : storeAll h cap qf .empty cs = some ix) (x : Lit)
    (hk : none ∉ queryKeys h x.atom) : ∃ r, lookup h ix x = some r := by
  obtain ⟨ct, h1, _, _, _⟩ := storeAll_holds holds_empty hs
  have : ∀ ks : List (Option Nat), (∀ k, some k ∈ ks → 1 ≤ k ∧ k < vecEls) → none ∉ ks →
      ∃ r, ks.foldr (fun k r => (bucket ix (!x.neg) k).bind fun b => r.map (b ++ ·)) (some []) = some r := by
    intro ks
    induction ks with
    | nil => intro _ _; exact ⟨[], rfl⟩
    | cons k ks ih =>
      intro hr hn
      cases k with
      | none => simp at hn
      | some k =>
        obtain ⟨r, e⟩ := ih (fun k hk => hr k (List.mem_cons_of_mem _ hk)) (by simpa using hn)
        exact ⟨ct (!x.neg) k ++ r, by
          simp [List.foldr_cons, bucket_holds h1 _ (hr k List.mem_cons_self), e]⟩
  exact this _ (fun k hk => queryKeys_range hk) hk

/-- C24 fails without the hypothesis that storing and looking up did not stop: the bucket number
of a three-symbol prefix can be computed from `abs(INT_MIN)`.  The unit clause
`p(16747,338028)` cannot be stored: the prover exits. -/
theorem C24_some_literal_not_storable (cap c : Nat) : storeAll baseHash cap false .empty
    [(c, [(true, ⟨false, .app (.sym "p") [.const (.int 16747), .const (.int 338028)]⟩)])] = none := by
  have hk : storeKeys baseHash (.app (.sym "p") [.const (.int 16747), .const (.int 338028)]) =
      [some 412704, some 937040, none] := by decide +kernel
  have : ∀ ix : Ix, addKeys cap ix false (.app (.sym "p") [.const (.int 16747), .const (.int 338028)]) c
      [some 412704, some 937040, none] = none := by
    intro ix
    simp only [addKeys]
    cases add cap ix false 412704 (.app (.sym "p") [.const (.int 16747), .const (.int 338028)]) c 0 with
    | none => rfl
    | some ix =>
      show (add cap ix false 937040 _ c 0).bind _ = none
      cases add cap ix false 937040 (.app (.sym "p") [.const (.int 16747), .const (.int 338028)]) c 0 <;> rfl
  simp only [storeAll, storeCl, isRec, hk, this]
  rfl

/-- ... and a query with it against an index holding the complementary literal stops as well,
although the two are equal -/
theorem C24_some_literal_not_found : none ∈ queryKeys baseHash
    (.app (.sym "p") [.const (.int 16747), .const (.int 338028)]) := by decide +kernel

/-- two clauses: `-p(a,X) | q(f(X))` and `p(Y,b)`; the lookup of `-p(a,X)` finds `p(Y,b)` -/
example : ((storeAll baseHash 100 false .empty
      [(1, [(true, ⟨true, .app (.sym "p") [.const (.sym "a"), .var 0]⟩),
            (true, ⟨false, .app (.sym "q") [.app (.sym "f") [.var 0]]⟩)]),
       (2, [(true, ⟨false, .app (.sym "p") [.var 5, .const (.sym "b")]⟩)])]).bind fun ix =>
    lookup baseHash ix ⟨true, .app (.sym "p") [.const (.sym "a"), .var 0]⟩) =
    some [(.app (.sym "p") [.var 5, .const (.sym "b")], 2, 0)] := by decide +kernel

end Gkc.Props
