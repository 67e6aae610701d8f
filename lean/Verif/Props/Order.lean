import Verif.OrderLemmas
import Verif.Props.Unify
/- Property theorems C21: the term ordering. -/
namespace Gkc.Props
open Gkc Term

/-! A constant stands for its word: the code compares words.  `wd` gives the words.  Words are
64 bit numbers, so they are bounded above. -/

/-- example words: every constant gets its own negative number -/
def wdL : List Char → Nat
  | [] => 0
  | c :: cs => (c.toNat + 1) + 1114112 * wdL cs

/-- integers as natural numbers -/
def wdI (i : Int) : Nat := if i < 0 then (2 * (-i) - 1).toNat else (2 * i).toNat

/-- pairs as natural numbers -/
def wdP (a b : Nat) : Nat := (a + b) * (a + b) + a

/-- doubles as natural numbers -/
def wdD : Dbl → Nat
  | .fin q => 2 + wdP (wdI q.num) q.den
  | .inf b => if b then 1 else 0

/-- example words -/
def wdEx : Const → Int
  | .sym s => -(6 * (wdL s.toList : Int) + 2)
  | .int i => -(6 * (wdI i : Int) + 1)
  | .str s => -(6 * (wdL s.toList : Int) + 3)
  | .qsym s => -(6 * (wdL s.toList : Int) + 5)
  | .dbl x => -(6 * (wdD x : Int) + 4)
  | .oth k => -(6 * (k : Int))

theorem wdI_inj {a b : Int} (h : wdI a = wdI b) : a = b := by
  unfold wdI at h
  split at h <;> split at h <;> omega

theorem wdP_lt {a b c d : Nat} (h : a + b < c + d) : wdP a b < wdP c d := by
  unfold wdP
  have : (a + b + 1) * (a + b + 1) ≤ (c + d) * (c + d) := Nat.mul_le_mul h h
  have e : (a + b + 1) * (a + b + 1) = (a + b) * (a + b) + 2 * (a + b) + 1 := by
    simp only [Nat.mul_add, Nat.add_mul, Nat.mul_one, Nat.one_mul]; omega
  omega

theorem wdP_inj {a b c d : Nat} (h : wdP a b = wdP c d) : a = c ∧ b = d := by
  have h1 : ¬ a + b < c + d := fun h' => by have := wdP_lt h'; omega
  have h2 : ¬ c + d < a + b := fun h' => by have := wdP_lt h'; omega
  have e : a + b = c + d := by omega
  unfold wdP at h
  rw [e] at h
  omega

theorem wdD_inj {x y : Dbl} (h : wdD x = wdD y) : x = y := by
  cases x with
  | fin q =>
    cases y with
    | fin r =>
      simp only [wdD] at h
      have := wdP_inj (Nat.add_left_cancel h)
      rw [Rat.ext (wdI_inj this.1) this.2]
    | inf b => simp only [wdD] at h; split at h <;> omega
  | inf a =>
    cases y with
    | fin r => simp only [wdD] at h; split at h <;> omega
    | inf b => cases a <;> cases b <;> simp_all [wdD]

theorem wdL_inj : ∀ a b : List Char, wdL a = wdL b → a = b
  | [], [], _ => rfl
  | [], c :: b, h => by simp only [wdL] at h; omega
  | c :: a, [], h => by simp only [wdL] at h; omega
  | c :: a, d :: b, h => by
    simp only [wdL] at h
    have hc : c.toNat < 1114112 := by
      have := c.valid; simp only [UInt32.isValidChar, Nat.isValidChar] at this
      show c.val.toNat < _; omega
    have hd : d.toNat < 1114112 := by
      have := d.valid; simp only [UInt32.isValidChar, Nat.isValidChar] at this
      show d.val.toNat < _; omega
    have e1 : c.toNat = d.toNat := by omega
    have e2 : wdL a = wdL b := by omega
    rw [wdL_inj a b e2, Char.toNat_inj.1 e1]

theorem wdEx_inj : WordInj wdEx := by
  intro c d h
  cases c <;> cases d <;> simp only [wdEx] at h <;> first
    | (exfalso; omega)
    | (congr 1; first
        | omega
        | exact wdI_inj (by omega)
        | exact wdD_inj (by omega)
        | exact String.toList_inj.1 (wdL_inj _ _ (by omega)))

theorem wdEx_le (c : Const) : wdEx c ≤ 0 := by
  cases c <;> simp only [wdEx] <;> omega

/-- C21: exchanging the terms exchanges the answers, so no term is decided both bigger and
smaller. -/
theorem C21_never_both (wd : Const → Int) (s t : Term) :
    (orderEq wd s t = 1 ↔ orderEq wd t s = 2) ∧ ¬ (orderEq wd s t = 1 ∧ orderEq wd t s = 1) := by
  have h := orderEq_flip (wd := wd) s t
  refine ⟨?_, ?_⟩
  · rw [h]; constructor
    · intro e; rw [e]; rfl
    · intro e
      revert e
      generalize orderEq wd s t = n
      unfold flip12
      split <;> simp_all
  · rintro ⟨e, e'⟩
    rw [h, e] at e'
    simp [flip12] at e'

/-- C21: a term is never bigger than itself. -/
theorem C21_irreflexive (wd : Const → Int) (s : Term) : orderEq wd s s ≠ 1 := by
  intro h
  exact (C21_never_both wd s s).2 ⟨h, h⟩

/-- C21: transitive, for terms with at most 1000 different variables. -/
theorem C21_transitive {wd : Const → Int} (hw : WordInj wd) {s t u : Term}
    (hs : Few (vars s)) (ht : Few (vars t)) (hu : Few (vars u))
    (h1 : orderEq wd s t = 1) (h2 : orderEq wd t u = 1) : orderEq wd s u = 1 :=
  (orderEq_gt hs hu).2 (((orderEq_gt hs ht).1 h1).trans hw ((orderEq_gt ht hu).1 h2))

/-- C21: preserved by every substitution. -/
theorem C21_stable {wd : Const → Int} {s t : Term} (θ : Nat → Term)
    (hs : Few (vars s)) (ht : Few (vars t))
    (hs' : Few (vars (subst θ s))) (ht' : Few (vars (subst θ t)))
    (h : orderEq wd s t = 1) : orderEq wd (subst θ s) (subst θ t) = 1 :=
  (orderEq_gt hs' ht').2 (((orderEq_gt hs ht).1 h).subst θ)

/-- C21: preserved in every argument position. -/
theorem C21_context {wd : Const → Int} {s t : Term} (f : Const) (pre post : List Term)
    (hs : Few (vars (.app f (pre ++ s :: post)))) (ht : Few (vars (.app f (pre ++ t :: post))))
    (h : orderEq wd s t = 1) :
    orderEq wd (.app f (pre ++ s :: post)) (.app f (pre ++ t :: post)) = 1 := by
  have hs0 : Few (vars s) := hs.sub (by intro v hv; simp [varsL_append', hv])
  have ht0 : Few (vars t) := ht.sub (by intro v hv; simp [varsL_append', hv])
  exact (orderEq_gt hs ht).2 (((orderEq_gt hs0 ht0).1 h).arg f pre post)

/-- C21: a smaller term has no variables that the bigger one does not have. -/
theorem C21_smaller_has_no_new_variables {wd : Const → Int} {s t : Term}
    (hs : Few (vars s)) (ht : Few (vars t)) (h : orderEq wd s t = 1) : ∀ v ∈ vars t, v ∈ vars s :=
  fun _ hv => VarLe.mem ((orderEq_gt hs ht).1 h).1 hv

/-- C21: no infinite sequence of terms, each smaller than the one before. -/
theorem C21_no_infinite_descent {wd : Const → Int} {K : Int} (hw : WordInj wd) (hK : ∀ c, wd c ≤ K)
    (q : Nat → Term) (hq : ∀ n, Few (vars (q n))) : ∃ n, orderEq wd (q n) (q (n + 1)) ≠ 1 := by
  refine Classical.byContradiction fun hc => ?_
  have hc' : ∀ n, orderEq wd (q n) (q (n + 1)) = 1 := fun n =>
    Classical.byContradiction fun e => hc ⟨n, e⟩
  have key : ∀ t, Acc (fun x y => Gt wd y x) t → ∀ n, q n = t → False := by
    intro t ht
    induction ht with
    | intro t _ ih =>
      intro n e
      exact ih (q (n + 1)) (e ▸ (orderEq_gt (hq n) (hq (n + 1))).1 (hc' n)) (n + 1) rfl
  exact key _ ((gt_wf hw hK).apply (q 0)) 0 rfl

mutual
theorem lexOrder_ground (wd : Const → Int) : ∀ s t : Term, vars s = [] → vars t = [] → lexOrder wd s t ≤ 2
  | .var v, _, h, _ => by simp at h
  | .const c, t, _, h => by
    cases t with
    | var w => simp at h
    | const d => simp only [lexOrder]; split <;> [omega; (split <;> omega)]
    | app g bs => simp [lexOrder]
  | .app f as, t, h, h' => by
    cases t with
    | var w => simp at h'
    | const d => simp [lexOrder]
    | app g bs =>
      simp only [lexOrder]
      split
      · omega
      · split
        · omega
        · split
          · exact lexOrderL_ground wd as bs (by simpa using h) (by simpa using h')
          · split <;> omega
theorem lexOrderL_ground (wd : Const → Int) : ∀ as bs : List Term, varsL as = [] → varsL bs = [] →
    lexOrderL wd as bs ≤ 2
  | [], bs, _, _ => by cases bs <;> simp [lexOrderL]
  | a :: as, bs, h, h' => by
    cases bs with
    | nil => simp [lexOrderL]
    | cons b bs =>
      simp only [varsL_cons, List.append_eq_nil_iff] at h h'
      have := lexOrder_ground wd a b h.1 h'.1
      simp only [lexOrderL]
      cases e : lexOrder wd a b with
      | zero => exact lexOrderL_ground wd as bs h.2 h'.2
      | succ k => simp only; omega
end

/-- C21: of two different terms without variables one is bigger. -/
theorem C21_total_on_ground {wd : Const → Int} (hw : WordInj wd) {s t : Term}
    (hs : vars s = []) (ht : vars t = []) (hne : s ≠ t) : orderEq wd s t = 1 ∨ orderEq wd t s = 1 := by
  have fs : Few (vars s) := ⟨[], by simp, by simp [hs]⟩
  have ft : Few (vars t) := ⟨[], by simp, by simp [ht]⟩
  have v1 : VarLe t s := fun v => by simp [hs, ht]
  have v2 : VarLe s t := fun v => by simp [hs, ht]
  rw [orderEq_gt fs ft, orderEq_gt ft fs]
  rcases Nat.lt_trichotomy (size s) (size t) with h | h | h
  · exact Or.inr ⟨v2, Or.inl h⟩
  · have hl := lexOrder_ground wd s t hs ht
    have h0 : lexOrder wd s t ≠ 0 := fun e => hne (lexOrder_zero hw s t e)
    have hf := lexOrder_flip (wd := wd) s t
    rcases (show lexOrder wd s t = 1 ∨ lexOrder wd s t = 2 by omega) with e | e
    · exact Or.inr ⟨v2, Or.inr ⟨h, by rw [hf, e]; rfl⟩⟩
    · exact Or.inl ⟨v1, Or.inr ⟨h.symm, e⟩⟩
  · exact Or.inl ⟨v1, Or.inl h⟩

/-- f(x,g(x)) is bigger than g(x) and stays so under x := h(a), in any argument of k. -/
example : orderEq wdEx (ap "f" [.var 1, ap "g" [.var 1]]) (ap "g" [.var 1]) = 1 ∧
    Few (vars (ap "f" [.var 1, ap "g" [.var 1]])) :=
  ⟨by decide +kernel, [1], by decide, by simp [ap]⟩

example : orderEq wdEx (ap "f" [.var 1, .var 1]) (ap "f" [.var 1, .var 2]) = 3 := by decide +kernel

theorem varsL_map_var (L : List Nat) : varsL (L.map Term.var) = L := by
  induction L with
  | nil => simp
  | cons a L ih => simp [ih]

theorem sizeL_map_var (L : List Nat) : sizeL (L.map Term.var) = L.length := by
  induction L with
  | nil => simp
  | cons a L ih => simp [ih]; omega

theorem substL_map_var (θ : Nat → Term) (L : List Nat) (h : ∀ v ∈ L, θ v = .var v) :
    substL θ (L.map Term.var) = L.map Term.var := by
  induction L with
  | nil => simp [substL]
  | cons a L ih =>
    have h1 := h a (by simp)
    have h2 := ih (fun v hv => h v (by simp [hv]))
    simp only [List.map_cons, substL, h2, Term.subst, h1]

/-- a term with the variables 0 .. n-1 and two constants -/
def manyS (n : Nat) : Term := .app (.oth 1) ((List.range n).map Term.var ++ [.const (.oth 0), .const (.oth 0)])
/-- a term with the variables 0 .. n -/
def manyT (n : Nat) : Term := .app (.oth 2) ((List.range n).map Term.var ++ [.var n])
/-- variable n replaced by a bigger term -/
def manyθ (n : Nat) : Nat → Term := fun v => if v = n then ap "f" [cn "a", cn "b", cn "c"] else .var v

/-- Finding: with more than 1000 different variables the answer ignores variables and is not
stable.  The first term is decided bigger than the second, though the second has a variable the
first lacks, and after replacing that variable the second is bigger. -/
theorem C21_many_variables_not_stable (wd : Const → Int) (n : Nat) (hn : n = vlCap) :
    orderEq wd (manyS n) (manyT n) = 1 ∧ n ∈ vars (manyT n) ∧ n ∉ vars (manyS n) ∧
      orderEq wd (subst (manyθ n) (manyS n)) (subst (manyθ n) (manyT n)) = 2 := by
  have vS : vars (manyS n) = List.range n := by simp [manyS, varsL_append', varsL_map_var]
  have vT : vars (manyT n) = List.range n ++ [n] := by simp [manyT, varsL_append', varsL_map_var]
  have zS : size (manyS n) = n + 3 := by simp [manyS, sizeL_append', sizeL_map_var]; omega
  have zT : size (manyT n) = n + 2 := by simp [manyT, sizeL_append', sizeL_map_var]; omega
  have few : Few (List.range n) := ⟨List.range n, by simp [hn], fun v h => h⟩
  have hof : (vlOf (manyS n)).Of (List.range n) := by
    have := vlOf_of (t := manyS n) (by rw [vS]; exact few)
    rw [vS] at this; exact this
  have hlen : n ≤ (vlOf (manyS n)).els.length := by
    have := (List.subperm_of_subset (List.nodup_range (n := n)) (l₂ := (vlOf (manyS n)).els.map (·.1))
      (fun v hv => (hof.mem v).2 hv)).length_le
    simpa using this
  have hk : n ∉ (vlOf (manyS n)).els.map (·.1) := by rw [hof.mem]; simp
  have hvl : vlOf (manyT n) = vlOf (manyS n) := by
    have : vlOf (manyT n) = record n (vlOf (manyS n)) := by simp [vlOf, vS, vT, List.foldl_append]
    rw [this]
    simp only [record, incr_none.2 hk, ite_self]
    rw [if_pos (hn ▸ hlen)]
  have e1 : Term.subst (manyθ n) (manyS n) = (manyS n) := by
    simp only [manyS, Term.subst, substL_eq_map, List.map_append]
    rw [← substL_eq_map, substL_map_var]
    · simp
    · intro v hv; simp only [List.mem_range] at hv; simp [manyθ, show v ≠ n by omega]
  have e2 : Term.subst (manyθ n) (manyT n) = .app (.oth 2) ((List.range n).map Term.var ++
      [ap "f" [cn "a", cn "b", cn "c"]]) := by
    simp only [manyT, Term.subst, substL_eq_map, List.map_append]
    rw [← substL_eq_map, substL_map_var]
    · simp [manyθ]
    · intro v hv; simp only [List.mem_range] at hv; simp [manyθ, show v ≠ n by omega]
  have vT' : vars (Term.subst (manyθ n) (manyT n)) = List.range n := by
    rw [e2]; simp [varsL_append', varsL_map_var, ap, cn]
  have zT' : size (Term.subst (manyθ n) (manyT n)) = n + 5 := by
    rw [e2]; simp [sizeL_append', sizeL_map_var, ap, cn]; omega
  refine ⟨?_, by simp [vT], by simp [vS], ?_⟩
  · have hb : subList (vlOf (manyT n)) (vlOf (manyS n)) = true := by
      rw [hvl, subList_of hof hof]; exact fun v => Nat.le_refl _
    have hz : size (manyT n) < size (manyS n) := by omega
    unfold manyS manyT at hb hz ⊢
    rw [orderEq_app, if_pos ⟨hz, hb⟩]
  · rw [← (C21_never_both wd _ _).1, e1, orderEq_gt (by rw [vT']; exact few) (by rw [vS]; exact few)]
    exact ⟨fun v => by rw [vS, vT']; exact Nat.le_refl _, Or.inl (by omega)⟩

end Gkc.Props
