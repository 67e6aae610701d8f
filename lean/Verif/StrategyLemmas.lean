import Verif.Strategy
import Verif.OrderLemmas
import Verif.Complete
import Verif.LoopInv
import Mathlib.Order.Extension.Well
import Mathlib.Data.Fintype.Order
/- Lemmas about the choice of literals. -/
namespace Gkc.Strategy
open Gkc Term Complete
open Gkc.Loop (over_app)

/-! ### The order of atoms -/

/-- the comparison of constants of `S` is the order of some numbers -/
structure Ranked (S : Const → Prop) (q : Par) (rk : Const → Nat) : Prop where
  inj : ∀ c d, rk c = rk d → c = d
  word : ∀ c d, S c → S d → q.wd c = q.wd d → c = d
  less : ∀ c d, S c → S d → c ≠ d → (constLess q c d = true ↔ rk c < rk d)

/-- words giving the same order -/
def rwd (rk : Const → Nat) : Const → Int := fun c => -(rk c : Int)

variable {S : Const → Prop} {q : Par} {rk : Const → Nat}

theorem Ranked.wordInj (h : Ranked S q rk) : WordInj (rwd rk) := fun c d e => h.inj c d (by unfold rwd at e; omega)

theorem rwd_le (c : Const) : rwd rk c ≤ 0 := by unfold rwd; omega

theorem Ranked.const (h : Ranked S q rk) {α : Type} {c d : Const} (hc : S c) (hd : S d) (x y z : α) :
    (if q.wd c = q.wd d then x else if constLess q c d = true then y else z) =
      (if rwd rk c = rwd rk d then x else if constSmaller (rwd rk) c d = true then y else z) := by
  by_cases e : c = d
  · subst e; simp
  · have e1 : ¬ q.wd c = q.wd d := fun h' => e (h.word c d hc hd h')
    have e2 : ¬ rwd rk c = rwd rk d := fun h' => e (h.wordInj c d h')
    have e3 : constSmaller (rwd rk) c d = constLess q c d := by
      rw [Bool.eq_iff_iff, h.less c d hc hd e]
      unfold constSmaller rwd
      rw [decide_eq_true_eq]
      omega
    rw [if_neg e1, if_neg e2, e3]

theorem over_const {c : Const} (h : Loop.Over S (.const c)) : S c := h c (by simp [syms])

mutual
theorem lexAtoms_eq (h : Ranked S q rk) : ∀ s t : Term, Loop.Over S s → Loop.Over S t → lexAtoms q s t = lexOrder (rwd rk) s t
  | .var v, t, _, _ => by cases t <;> simp [lexAtoms, lexOrder]
  | .const c, t, hs, ht => by
    cases t with
    | var w => simp [lexAtoms, lexOrder]
    | const d => simp only [lexAtoms, lexOrder]; exact h.const (over_const hs) (over_const ht) _ _ _
    | app g bs => simp [lexAtoms, lexOrder]
  | .app f as, t, hs, ht => by
    cases t with
    | var w => simp [lexAtoms, lexOrder]
    | const d => simp [lexAtoms, lexOrder]
    | app g bs =>
      rw [over_app] at hs ht
      simp only [lexAtoms, lexOrder, lexAtomsL_eq h as bs hs.2 ht.2]
      rw [h.const hs.1 ht.1]
theorem lexAtomsL_eq (h : Ranked S q rk) : ∀ as bs : List Term, (∀ a ∈ as, Loop.Over S a) → (∀ b ∈ bs, Loop.Over S b) → lexAtomsL q as bs = lexOrderL (rwd rk) as bs
  | [], _, _, _ => by simp [lexAtomsL, lexOrderL]
  | _ :: _, [], _, _ => by simp [lexAtomsL, lexOrderL]
  | a :: as, b :: bs, hs, ht => by
    simp only [lexAtomsL, lexOrderL, lexAtoms_eq h a b (hs a (by simp)) (ht b (by simp)),
      lexAtomsL_eq h as bs (fun x hx => hs x (by simp [hx])) fun x hx => ht x (by simp [hx])]
    cases lexOrder (rwd rk) a b <;> rfl
end

mutual
theorem atomWeight_eq : ∀ (t : Term) (l : VL), atomWeight t l = (size t, (vars t).foldl (fun l v => record v l) l)
  | .var v, l => by simp [atomWeight]
  | .const c, l => by simp [atomWeight]
  | .app f as, l => by
    simp only [atomWeight, atomWeightL_eq as l, size_app, vars_app]
theorem atomWeightL_eq : ∀ (as : List Term) (l : VL), atomWeightL as l = (sizeL as, (varsL as).foldl (fun l v => record v l) l)
  | [], l => by simp [atomWeightL]
  | a :: as, l => by
    simp only [atomWeightL, atomWeight_eq a l, atomWeightL_eq as _, sizeL_cons, varsL_cons, List.foldl_append]
end

theorem cmpAtoms_eq (h : Ranked S q rk) {f g : Const} {as bs : List Term} (hs : Loop.Over S (.app f as)) (ht : Loop.Over S (.app g bs)) :
    cmpAtoms q (.app f as) (.app g bs) = orderEq (rwd rk) (.app f as) (.app g bs) := by
  rw [orderEq_app]
  simp only [cmpAtoms, atomWeight_eq, lexAtoms_eq h _ _ hs ht, gt_iff_lt]
  rfl

/-! ### Names of variables -/

/-- one name for each of the variables in the list -/
def InjOn (ren : Nat → Nat) (L : List Nat) : Prop := ∀ v w, v ∈ L → w ∈ L → ren v = ren w → v = w

mutual
theorem size_ren (ren : Nat → Nat) : ∀ t : Term, size (subst (fun v => .var (ren v)) t) = size t
  | .var v => by simp
  | .const c => by simp
  | .app f as => by simp [size_app, sizeL_ren ren as]
theorem sizeL_ren (ren : Nat → Nat) : ∀ as : List Term, sizeL (as.map (subst (fun v => .var (ren v)))) = sizeL as
  | [] => by simp
  | a :: as => by simp [size_ren ren a, sizeL_ren ren as]
end

mutual
theorem vars_ren (ren : Nat → Nat) : ∀ t : Term, vars (subst (fun v => .var (ren v)) t) = (vars t).map ren
  | .var v => by simp
  | .const c => by simp
  | .app f as => by simp [varsL_ren ren as]
theorem varsL_ren (ren : Nat → Nat) : ∀ as : List Term, varsL (as.map (subst (fun v => .var (ren v)))) = (varsL as).map ren
  | [] => by simp
  | a :: as => by simp [vars_ren ren a, varsL_ren ren as]
end

theorem count_ren {ren : Nat → Nat} {L M : List Nat} (hi : InjOn ren M) (hs : ∀ v ∈ L, v ∈ M) {v : Nat} (hv : v ∈ M) : (L.map ren).count (ren v) = L.count v := by
  induction L with
  | nil => simp
  | cons x L ih =>
    have ih := ih fun v hv => hs v (by simp [hv])
    simp only [List.map_cons, List.count_cons, ih]
    congr 1
    by_cases e : x = v
    · simp [e]
    · have : ¬ ren x = ren v := fun h => e (hi x v (hs x (by simp)) hv h)
      simp [e, this]

theorem varLe_ren {ren : Nat → Nat} {M : List Nat} (hi : InjOn ren M) {s t : Term} (hs : ∀ v ∈ vars s, v ∈ M) (ht : ∀ v ∈ vars t, v ∈ M) :
    VarLe (subst (fun v => .var (ren v)) s) (subst (fun v => .var (ren v)) t) ↔ VarLe s t := by
  unfold VarLe
  rw [vars_ren, vars_ren]
  constructor
  · intro h v
    by_cases hv : v ∈ M
    · have := h (ren v)
      rwa [count_ren hi hs hv, count_ren hi ht hv] at this
    · rw [List.count_eq_zero.2 fun h => hv (hs v h)]; omega
  · intro h w
    by_cases hw : w ∈ (vars s).map ren
    · obtain ⟨v, hv, rfl⟩ := List.mem_map.1 hw
      rw [count_ren hi hs (hs v hv), count_ren hi ht (hs v hv)]
      exact h v
    · rw [List.count_eq_zero.2 hw]; omega

mutual
theorem lexAtoms_ren {ren : Nat → Nat} {M : List Nat} (hi : InjOn ren M) : ∀ s t : Term, (∀ v ∈ vars s, v ∈ M) → (∀ v ∈ vars t, v ∈ M) →
    lexAtoms q (subst (fun v => .var (ren v)) s) (subst (fun v => .var (ren v)) t) = lexAtoms q s t
  | .var v, t, hs, ht => by
    cases t with
    | var w =>
      simp only [subst_var, lexAtoms]
      by_cases e : v = w
      · simp [e]
      · have : ¬ ren v = ren w := fun h => e (hi v w (hs v (by simp)) (ht w (by simp)) h)
        simp [e, this]
    | const d => simp [lexAtoms]
    | app g bs => simp [lexAtoms]
  | .const c, t, hs, ht => by cases t <;> simp [lexAtoms]
  | .app f as, t, hs, ht => by
    cases t with
    | var w => simp [lexAtoms]
    | const d => simp [lexAtoms]
    | app g bs =>
      have := lexAtomsL_ren hi as bs (by simpa using hs) (by simpa using ht)
      simp only [subst_app, lexAtoms, List.length_map, this]
theorem lexAtomsL_ren {ren : Nat → Nat} {M : List Nat} (hi : InjOn ren M) : ∀ as bs : List Term, (∀ v ∈ varsL as, v ∈ M) → (∀ v ∈ varsL bs, v ∈ M) →
    lexAtomsL q (as.map (subst (fun v => .var (ren v)))) (bs.map (subst (fun v => .var (ren v)))) = lexAtomsL q as bs
  | [], _, _, _ => by simp [lexAtomsL]
  | _ :: _, [], _, _ => by simp [lexAtomsL]
  | a :: as, b :: bs, hs, ht => by
    simp only [varsL_cons, List.mem_append] at hs ht
    simp only [List.map_cons, lexAtomsL, lexAtoms_ren hi a b (fun v hv => hs v (.inl hv)) (fun v hv => ht v (.inl hv)),
      lexAtomsL_ren hi as bs (fun v hv => hs v (.inr hv)) (fun v hv => ht v (.inr hv))]
end

theorem few_map {L : List Nat} (ren : Nat → Nat) (h : Few L) : Few (L.map ren) := by
  obtain ⟨vs, h1, h2⟩ := h
  refine ⟨vs.map ren, by simpa using h1, fun v hv => ?_⟩
  obtain ⟨w, hw, rfl⟩ := List.mem_map.1 hv
  exact List.mem_map_of_mem (h2 w hw)

theorem cmpAtoms_ren {ren : Nat → Nat} {M : List Nat} (hi : InjOn ren M) (hM : Few M) {s t : Term} (hs : ∀ v ∈ vars s, v ∈ M) (ht : ∀ v ∈ vars t, v ∈ M) :
    cmpAtoms q (subst (fun v => .var (ren v)) s) (subst (fun v => .var (ren v)) t) = cmpAtoms q s t := by
  have fs : Few (vars s) := hM.sub hs
  have ft : Few (vars t) := hM.sub ht
  have e : ∀ {x y : Term}, (∀ v ∈ vars x, v ∈ M) → (∀ v ∈ vars y, v ∈ M) →
      subList (vlOf (subst (fun v => .var (ren v)) x)) (vlOf (subst (fun v => .var (ren v)) y)) = subList (vlOf x) (vlOf y) := by
    intro x y hx hy
    rw [Bool.eq_iff_iff, subList_iff (hM.sub hx) (hM.sub hy), subList_iff (by rw [vars_ren]; exact few_map ren (hM.sub hx)) (by rw [vars_ren]; exact few_map ren (hM.sub hy)),
      varLe_ren hi hx hy]
  have e1 := e hs ht
  have e2 := e ht hs
  unfold vlOf at e1 e2
  simp only [cmpAtoms, atomWeight_eq, size_ren, lexAtoms_ren hi s t hs ht, e1, e2]

/-! ### The loops over pairs -/

section
variable {cmp : Nat → Nat → Nat}

theorem off_true {v : Nat → Bool} {i k : Nat} (h : off v i k = true) : k ≠ i ∧ v k = true := by
  unfold off at h
  split at h
  · cases h
  · exact ⟨by assumption, h⟩

theorem off_false {v : Nat → Bool} {i k : Nat} (h : off v i k = false) : k = i ∨ v k = false := by
  unfold off at h
  split at h
  · exact .inl (by assumption)
  · exact .inr h

theorem kbInner_cons (i j : Nat) (js : List Nat) (v : Nat → Bool) :
    kbInner cmp i (j :: js) v = kbInner cmp i js (if v j = true then (if cmp i j = 1 then off v j else if cmp i j = 2 then off v i else v) else v) := by
  simp only [kbInner]
  cases hv : v j with
  | false => simp
  | true =>
    simp only [Bool.not_true, Bool.false_eq_true, if_false, if_true]
    by_cases h1 : cmp i j = 1
    · simp [h1]
    · by_cases h2 : cmp i j = 2
      · simp [h2]
      · simp only [h1, h2, if_false]

theorem kbInner_sub (i : Nat) : ∀ (js : List Nat) (v : Nat → Bool) {k : Nat}, kbInner cmp i js v k = true → v k = true
  | [], v, k, h => h
  | j :: js, v, k, h => by
    rw [kbInner_cons] at h
    have := kbInner_sub i js _ h
    split at this
    · split at this
      · exact (off_true this).2
      · split at this
        · exact (off_true this).2
        · exact this
    · exact this

theorem kbInner_why (i : Nat) : ∀ (js : List Nat) (v : Nat → Bool) {k : Nat}, kbInner cmp i js v k = false →
    v k = false ∨ ∃ j ∈ js, (k = j ∧ cmp i j = 1) ∨ (k = i ∧ cmp i j = 2)
  | [], v, k, h => .inl h
  | j :: js, v, k, h => by
    rw [kbInner_cons] at h
    rcases kbInner_why i js _ h with h | ⟨j', h1, h2⟩
    · split at h
      · split at h
        · rename_i e
          rcases off_false h with h | h
          · exact .inr ⟨j, by simp, .inl ⟨h, e⟩⟩
          · exact .inl h
        · split at h
          · rename_i e
            rcases off_false h with h | h
            · exact .inr ⟨j, by simp, .inr ⟨h, e⟩⟩
            · exact .inl h
          · exact .inl h
      · exact .inl h
    · exact .inr ⟨j', by simp [h1], h2⟩

/-- a pair that was looked at -/
theorem kbInner_does (i : Nat) : ∀ (js : List Nat) (v : Nat → Bool) {j : Nat}, j ∈ js →
    (cmp i j = 1 → kbInner cmp i js v j = false) ∧ (cmp i j = 2 → kbInner cmp i js v j = true → kbInner cmp i js v i = false)
  | [], _, _, h => by simp at h
  | j' :: js, v, j, h => by
    rw [kbInner_cons]
    by_cases hj : j ∈ js
    · exact kbInner_does i js _ hj
    · have e : j' = j := by simpa [hj, eq_comm] using h
      subst e
      have down : ∀ {w : Nat → Bool} {k : Nat}, w k = false → kbInner cmp i js w k = false := by
        intro w k hw
        cases hk : kbInner cmp i js w k with
        | false => rfl
        | true => rw [kbInner_sub i js w hk] at hw; cases hw
      constructor
      · intro e1
        apply down
        by_cases hv : v j' = true
        · rw [if_pos hv, if_pos e1]; simp [off]
        · rw [if_neg hv]; simpa using hv
      · intro e2 ht
        have := kbInner_sub i js _ ht
        have hv : v j' = true := by
          by_contra hv
          rw [if_neg hv] at this
          exact hv this
        apply down
        rw [if_pos hv, if_neg (by omega), if_pos e2]; simp [off]

theorem kbOuter_sub (n : Nat) : ∀ (is : List Nat) (v : Nat → Bool) {k : Nat}, kbOuter cmp n is v k = true → v k = true
  | [], _, _, h => h
  | i :: is, v, k, h => kbInner_sub i _ v (kbOuter_sub n is _ h)

theorem mem_drop_range {n i j : Nat} : j ∈ (List.range n).drop (i + 1) ↔ i < j ∧ j < n := by
  rw [List.mem_iff_getElem]
  constructor
  · rintro ⟨k, hk, rfl⟩
    simp only [List.length_drop, List.length_range] at hk
    simp only [List.getElem_drop, List.getElem_range]
    omega
  · rintro ⟨h1, h2⟩
    exact ⟨j - (i + 1), by simp; omega, by simp; omega⟩

theorem kbOuter_why (n : Nat) : ∀ (is : List Nat) (v : Nat → Bool) {k : Nat}, (∀ i ∈ is, i < n) → kbOuter cmp n is v k = false →
    v k = false ∨ ∃ j, j < n ∧ ((j < k ∧ cmp j k = 1) ∨ (k < j ∧ cmp k j = 2))
  | [], _, _, _, h => .inl h
  | i :: is, v, k, hn, h => by
    rcases kbOuter_why n is _ (fun i hi => hn i (by simp [hi])) h with h | h
    · rcases kbInner_why i _ v h with h | ⟨j, hj, h⟩
      · exact .inl h
      · rw [mem_drop_range] at hj
        rcases h with ⟨rfl, e⟩ | ⟨rfl, e⟩
        · exact .inr ⟨i, hn i (by simp), .inl ⟨hj.1, e⟩⟩
        · exact .inr ⟨j, hj.2, .inr ⟨hj.1, e⟩⟩
    · exact .inr h

theorem kbOuter_does (n : Nat) : ∀ (is : List Nat) (v : Nat → Bool) {i j : Nat}, i ∈ is → i < j → j < n →
    (cmp i j = 1 → kbOuter cmp n is v j = false) ∧ (cmp i j = 2 → kbOuter cmp n is v j = true → kbOuter cmp n is v i = false)
  | [], _, _, _, h, _, _ => by simp at h
  | i' :: is, v, i, j, h, h1, h2 => by
    by_cases hi : i ∈ is
    · exact kbOuter_does n is _ hi h1 h2
    · have e : i' = i := by simpa [hi, eq_comm] using h
      subst e
      have down : ∀ {w : Nat → Bool} {k : Nat}, w k = false → kbOuter cmp n is w k = false := by
        intro w k hw
        cases hk : kbOuter cmp n is w k with
        | false => rfl
        | true => rw [kbOuter_sub n is w hk] at hw; cases hw
      obtain ⟨d1, d2⟩ := kbInner_does (cmp := cmp) i' ((List.range n).drop (i' + 1)) v (mem_drop_range.2 ⟨h1, h2⟩)
      refine ⟨fun e => down (d1 e), fun e ht => down (d2 e (kbOuter_sub n is _ ht))⟩

/-- The pairwise comparison leaves the places that no place is bigger than, if `big` is a strict order. -/
theorem kbOuter_iff {n : Nat} {big : Nat → Nat → Prop} (h1 : ∀ i j, i < n → j < n → (cmp i j = 1 ↔ big i j)) (h2 : ∀ i j, i < n → j < n → (cmp i j = 2 ↔ big j i))
    (ht : ∀ i j k, i < n → j < n → k < n → big i j → big j k → big i k) (hi : ∀ i, i < n → ¬ big i i) {i : Nat} (hin : i < n) :
    kbOuter cmp n (List.range n) (fun _ => true) i = true ↔ ∀ k, k < n → ¬ big k i := by
  have top : ∀ i, i < n → (∀ k, k < n → ¬ big k i) → kbOuter cmp n (List.range n) (fun _ => true) i = true := by
    intro i hin h
    cases hk : kbOuter cmp n (List.range n) (fun _ => true) i with
    | true => rfl
    | false =>
      rcases kbOuter_why n _ _ (fun i hi => by simpa using hi) hk with e | ⟨j, hj, ⟨_, e⟩ | ⟨_, e⟩⟩
      · cases e
      · exact absurd ((h1 j i hj hin).1 e) (h j hj)
      · exact absurd ((h2 i j hin hj).1 e) (h j hj)
  refine ⟨fun h k hk hb => ?_, top i hin⟩
  let R : _root_.Fin n → _root_.Fin n → Prop := fun x y => big x y
  have : IsTrans (_root_.Fin n) R := ⟨fun x y z => ht x y z x.2 y.2 z.2⟩
  have : Std.Irrefl R := ⟨fun x => hi x x.2⟩
  have wf : WellFounded R := Finite.wellFounded_of_trans_of_irrefl R
  obtain ⟨m, hm, hmin⟩ := wf.has_min {x : _root_.Fin n | big x i} ⟨⟨k, hk⟩, hb⟩
  have hm : big m i := hm
  have htop := top m m.2 fun k hk hb => hmin ⟨k, hk⟩ (ht k m i hk m.2 hin hb hm) hb
  rcases Nat.lt_trichotomy m.1 i with hl | he | hl
  · have := (kbOuter_does (cmp := cmp) n (List.range n) (fun _ => true) (i := m.1) (j := i) (by simp) hl hin).1 ((h1 m i m.2 hin).2 hm)
    rw [h] at this; cases this
  · rw [he] at hm; exact hi i hin hm
  · have := (kbOuter_does (cmp := cmp) n (List.range n) (fun _ => true) (i := i) (j := m.1) (by simpa using hin) hl m.2).2 ((h2 i m hin m.2).2 hm) htop
    rw [h] at this; cases this

end

/-! ### Knuth-Bendix -/

open Gkc.Loop (Slim)

theorem slim_few {C : List Lit} (hC : Slim C) : Few (Props.clVars C) := by
  obtain ⟨_, vs, h1, h2⟩ := hC
  refine ⟨vs, h1, fun v hv => ?_⟩
  obtain ⟨l, hl, hv⟩ := Props.clVars_mem.1 hv
  exact h2 l hl v hv

theorem mem_clVars_at {C : List Lit} {i : Nat} (h : i < C.length) : ∀ v ∈ vars C[i].atom, v ∈ Props.clVars C :=
  fun _ hv => Props.clVars_mem.2 ⟨_, List.getElem_mem h, hv⟩

theorem atomAt_lt {C : List Lit} {i : Nat} (h : i < C.length) : atomAt C i = C[i].atom := by
  simp [atomAt, h]

theorem orderEq_two {wd : Const → Int} {s t : Term} (hs : Few (vars s)) (ht : Few (vars t)) : orderEq wd s t = 2 ↔ Gt wd t s := by
  rw [← orderEq_gt ht hs, orderEq_flip s t]
  generalize orderEq wd s t = n
  unfold flip12
  split <;> simp_all

/-- Knuth-Bendix: the literals with no bigger literal in the clause are chosen -/
theorem kbSel_iff (h : Ranked S q rk) {C : List Lit} (hC : Slim C) (hS : ∀ l ∈ C, Loop.Over S l.atom) {i : Nat} (hi : i < C.length) :
    kbSel q C i = true ↔ ∀ (k : Nat) (hk : k < C.length), ¬ Gt (rwd rk) C[k].atom C[i].atom := by
  have few : ∀ (k : Nat) (hk : k < C.length), Few (vars C[k].atom) := fun k hk => (slim_few hC).sub (mem_clVars_at hk)
  have e : ∀ (i j : Nat) (hi : i < C.length) (hj : j < C.length), cmpAtoms q (atomAt C i) (atomAt C j) = orderEq (rwd rk) C[i].atom C[j].atom := by
    intro i j hi hj
    rw [atomAt_lt hi, atomAt_lt hj]
    obtain ⟨f, as, e1⟩ := hC.1 _ (List.getElem_mem hi)
    obtain ⟨g, bs, e2⟩ := hC.1 _ (List.getElem_mem hj)
    have o1 := hS _ (List.getElem_mem hi)
    have o2 := hS _ (List.getElem_mem hj)
    rw [e1] at o1 ⊢
    rw [e2] at o2 ⊢
    exact cmpAtoms_eq h o1 o2
  let big : Nat → Nat → Prop := fun x y => ∃ (hx : x < C.length) (hy : y < C.length), Gt (rwd rk) C[x].atom C[y].atom
  unfold kbSel
  rw [kbOuter_iff (big := big) ?_ ?_ ?_ ?_ hi]
  · constructor
    · intro h k hk hg
      exact h k hk ⟨hk, hi, hg⟩
    · rintro h k hk ⟨_, _, hg⟩
      exact h k hk hg
  · intro x y hx hy
    rw [e x y hx hy, orderEq_gt (few x hx) (few y hy)]
    exact ⟨fun h => ⟨hx, hy, h⟩, fun ⟨_, _, h⟩ => h⟩
  · intro x y hx hy
    rw [e x y hx hy, orderEq_two (few x hx) (few y hy)]
    exact ⟨fun h => ⟨hy, hx, h⟩, fun ⟨_, _, h⟩ => h⟩
  · rintro x y z hx hy hz ⟨_, _, h1⟩ ⟨_, _, h2⟩
    exact ⟨hx, hz, h1.trans h.wordInj h2⟩
  · rintro x hx ⟨_, _, h⟩
    exact Gt.irrefl h

theorem kbSel_max (h : Ranked S q rk) {r : Term → Term → Prop} [hw : IsWellOrder Term r] (hr : ∀ x y, Gt (rwd rk) y x → r x y) {C : List Lit} (hC : Slim C ∧ ∀ l ∈ C, Loop.Over S l.atom)
    (σ : Nat → Term) (i : Nat) (hi : i < C.length) (hm : ∀ l ∈ C.map (Lit.subst σ), l.atom = subst σ C[i].atom ∨ r l.atom (subst σ C[i].atom)) :
    kbSel q C i = true := by
  rw [kbSel_iff h hC.1 hC.2 hi]
  intro k hk hg
  have hg := hg.subst σ
  rcases hm (C[k].subst σ) (List.mem_map_of_mem (List.getElem_mem hk)) with e | e
  · have e : subst σ C[k].atom = subst σ C[i].atom := e
    rw [e] at hg
    exact Gt.irrefl hg
  · have e : r (subst σ C[k].atom) (subst σ C[i].atom) := e
    exact irrefl_of r _ (_root_.trans_of r e (hr _ _ hg))

/-! ### Hardness -/

theorem log10_pow : ∀ (k n : Nat), 1 ≤ n → 10 ^ log10 k n ≤ n
  | 0, n, h => by simpa [log10] using h
  | k + 1, n, h => by
    simp only [log10]
    split
    · simpa using h
    · have := log10_pow k (n / 10) (by omega)
      rw [Nat.pow_succ]
      omega

theorem log10_lt {k n m : Nat} (h : n < 10 ^ m) (hm : 1 ≤ m) : log10 k n < m := by
  by_cases hn : 1 ≤ n
  · exact (Nat.pow_lt_pow_iff_right (by omega : 1 < 10)).1 (Nat.lt_of_le_of_lt (log10_pow k n hn) h)
  · have : n = 0 := by omega
    subst this
    cases k <;> simp [log10] <;> omega

/-- what the computation keeps -/
def HInv (h : HC) : Prop := ∃ k, h.news + 1 + k ≤ h.size ∧ h.ipos ≤ 30000 * k ∧ h.ineg ≤ 30000 * k

theorem hardConst_inv {c : Const} {h : HC} (hi : HInv h) : HInv (hardConst q c h) := by
  obtain ⟨k, h1, h2, h3⟩ := hi
  refine ⟨k + 1, ?_, ?_, ?_⟩
  · simp only [hardConst]; omega
  · have : cpos q c ≤ 30000 := Nat.min_le_right _ _
    simp only [hardConst]; omega
  · have : cneg q c ≤ 10000 := Nat.min_le_right _ _
    simp only [hardConst]; omega

mutual
theorem hardTerm_inv : ∀ (t : Term) {h : HC}, HInv h → HInv (hardTerm q t h)
  | .var v, h, ⟨k, h1, h2, h3⟩ => by
    simp only [hardTerm]
    split
    · exact ⟨k, by simp only; omega, h2, h3⟩
    · exact ⟨k, by simp only; omega, h2, h3⟩
  | .const c, h, hi => by simp only [hardTerm]; exact hardConst_inv hi
  | .app f as, h, hi => by simp only [hardTerm]; exact hardTermL_inv as (hardConst_inv hi)
theorem hardTermL_inv : ∀ (as : List Term) {h : HC}, HInv h → HInv (hardTermL q as h)
  | [], h, hi => by simpa [hardTermL] using hi
  | a :: as, h, hi => by simp only [hardTermL]; exact hardTermL_inv as (hardTerm_inv a hi)
end

theorem roundLog_le {a : Nat} (h : a ≤ 30000) : roundLog a ≤ 4 := by
  have h1 : a * a ≤ 30000 * 30000 := Nat.mul_le_mul h h
  have := log10_lt (k := a * a) (n := a * a) (m := 9) (by omega) (by omega)
  unfold roundLog
  omega

theorem roundLog4_le {b k : Nat} (h : b ≤ 30000 * k) : roundLog4 b ≤ (k + 6) / 4 := by
  have h1 : k < 10 ^ k := Nat.lt_pow_self (by omega)
  have h2 : b < 10 ^ (5 + k) := by rw [Nat.pow_add]; omega
  have := log10_lt (k := b) h2 (by omega)
  unfold roundLog4
  omega

theorem hardOf_ge {x : Int} {a b k : Nat} (hx : (5 : Int) * (1 + k) ≤ x) (ha : a ≤ 30000) (hb : b ≤ 30000 * k) : 0 ≤ hardOf x a b := by
  have r1 := roundLog_le ha
  have r2 := roundLog4_le hb
  unfold hardOf
  simp only
  by_cases ha0 : a = 0
  · rw [if_pos ha0]
    split <;> omega
  · rw [if_neg ha0]
    split <;> omega

theorem hardness_ge (l : Lit) : 0 ≤ hardness q l := by
  unfold hardness
  obtain ⟨k, h1, h2, h3⟩ := hardTermL_inv (q := q) (parts l.atom).2 (h := ⟨1, [], 0, 0, 0⟩) ⟨0, by simp, by simp, by simp⟩
  generalize hardTermL q (parts l.atom).2 ⟨1, [], 0, 0, 0⟩ = h at *
  have hx : (5 : Int) * (1 + k) ≤ ((h.size : Int) - h.news) * 5 := by omega
  simp only
  split
  · exact hardOf_ge hx (Nat.min_le_right _ _) h2
  · exact hardOf_ge hx ((Nat.min_le_right _ _).trans (by omega)) h3

theorem foldl_max {f : Lit → Int} : ∀ (ls : List Lit) (m : Int), (ls.foldl (fun m l => if f l > m then f l else m) m = m ∨
    ∃ l ∈ ls, ls.foldl (fun m l => if f l > m then f l else m) m = f l) ∧ m ≤ ls.foldl (fun m l => if f l > m then f l else m) m ∧
      ∀ l ∈ ls, f l ≤ ls.foldl (fun m l => if f l > m then f l else m) m
  | [], m => by simp
  | x :: ls, m => by
    simp only [List.foldl_cons]
    obtain ⟨h1, h2, h3⟩ := foldl_max (f := f) ls (if f x > m then f x else m)
    generalize ls.foldl (fun m l => if f l > m then f l else m) (if f x > m then f x else m) = w at *
    refine ⟨?_, ?_, ?_⟩
    · rcases h1 with h | ⟨l, hl, h⟩
      · split at h
        · exact .inr ⟨x, by simp, h⟩
        · exact .inl h
      · exact .inr ⟨l, by simp [hl], h⟩
    · split at h2 <;> omega
    · intro l hl
      rcases List.mem_cons.1 hl with rfl | hl
      · split at h2 <;> omega
      · exact h3 l hl

/-- some literal has the maximal hardness -/
theorem maxHardness_mem {ls : List Lit} (h : ls ≠ []) : ∃ l ∈ ls, hardness q l = maxHardness q ls := by
  obtain ⟨h1, _, h3⟩ := foldl_max (f := hardness q) ls minHardness
  rcases h1 with h1 | ⟨l, hl, h1⟩
  · obtain ⟨l, hl⟩ := List.exists_mem_of_ne_nil _ h
    have := h3 l hl
    rw [h1] at this
    have := hardness_ge (q := q) l
    unfold minHardness at *
    omega
  · exact ⟨l, hl, h1.symm⟩

theorem pickFirst_some {ok : Lit → Bool} {mx : Int} : ∀ {C : List Lit}, (∃ l ∈ C, ok l = true ∧ ¬ hardness q l < mx) →
    ∃ (i : Nat) (h : i < C.length), (pickFirst q ok mx false C)[i]? = some true ∧ ok C[i] = true
  | [], h => by simp at h
  | x :: C, h => by
    simp only [pickFirst]
    by_cases hx : ok x = true ∧ ¬ hardness q x < mx
    · refine ⟨0, by simp, ?_, by simpa using hx.1⟩
      simp [hx.1, hx.2]
    · have : ∃ l ∈ C, ok l = true ∧ ¬ hardness q l < mx := by
        obtain ⟨l, hl, h⟩ := h
        rcases List.mem_cons.1 hl with rfl | hl
        · exact absurd h hx
        · exact ⟨l, hl, h⟩
      obtain ⟨i, hi, h1, h2⟩ := pickFirst_some this
      refine ⟨i + 1, by simpa using hi, ?_, by simpa using h2⟩
      by_cases h3 : ok x = true
      · have h4 : hardness q x < mx := by
          by_contra h4
          exact hx ⟨h3, h4⟩
        simpa [h3, h4] using h1
      · simpa [h3] using h1

/-! ### Names of variables, continued -/

mutual
theorem hardTerm_ren {ren : Nat → Nat} {M : List Nat} (hi : InjOn ren M) : ∀ (t : Term) (h : HC), (∀ v ∈ vars t, v ∈ M) → (∀ v ∈ h.seen, v ∈ M) →
    hardTerm q (subst (fun v => .var (ren v)) t) { h with seen := h.seen.map ren } = { hardTerm q t h with seen := (hardTerm q t h).seen.map ren } ∧
      ∀ v ∈ (hardTerm q t h).seen, v ∈ M
  | .var v, h, ht, hs => by
    have hv : v ∈ M := ht v (by simp)
    have e : ren v ∈ h.seen.map ren ↔ v ∈ h.seen := by
      rw [List.mem_map]
      constructor
      · rintro ⟨w, hw, e⟩
        exact hi w v (hs w hw) hv e ▸ hw
      · exact fun h => ⟨v, h, rfl⟩
    simp only [subst_var, hardTerm, e]
    by_cases hm : v ∈ h.seen
    · simp only [if_pos hm]
      exact ⟨trivial, hs⟩
    · simp only [if_neg hm, List.map_cons]
      refine ⟨trivial, fun w hw => ?_⟩
      rcases List.mem_cons.1 hw with rfl | hw
      · exact hv
      · exact hs w hw
  | .const c, h, ht, hs => by
    simp only [subst_const, hardTerm, hardConst]
    exact ⟨trivial, hs⟩
  | .app f as, h, ht, hs => by
    simp only [subst_app, hardTerm]
    exact hardTermL_ren hi as (hardConst q f h) (by simpa using ht) hs
theorem hardTermL_ren {ren : Nat → Nat} {M : List Nat} (hi : InjOn ren M) : ∀ (as : List Term) (h : HC), (∀ v ∈ varsL as, v ∈ M) → (∀ v ∈ h.seen, v ∈ M) →
    hardTermL q (as.map (subst (fun v => .var (ren v)))) { h with seen := h.seen.map ren } = { hardTermL q as h with seen := (hardTermL q as h).seen.map ren } ∧
      ∀ v ∈ (hardTermL q as h).seen, v ∈ M
  | [], h, _, hs => by simpa [hardTermL] using hs
  | a :: as, h, ht, hs => by
    simp only [varsL_cons, List.mem_append] at ht
    obtain ⟨e1, e2⟩ := hardTerm_ren hi a h (fun v hv => ht v (.inl hv)) hs
    obtain ⟨e3, e4⟩ := hardTermL_ren hi as (hardTerm q a h) (fun v hv => ht v (.inr hv)) e2
    simp only [List.map_cons, hardTermL, e1]
    exact ⟨e3, e4⟩
end

theorem hardness_ren {ren : Nat → Nat} {M : List Nat} (hi : InjOn ren M) {l : Lit} (hl : ∀ v ∈ vars l.atom, v ∈ M) (hp : ∃ p as, l.atom = .app p as) :
    hardness q (l.subst fun v => .var (ren v)) = hardness q l := by
  obtain ⟨p, as, e⟩ := hp
  have h1 := (hardTermL_ren (q := q) hi as ⟨1, [], 0, 0, 0⟩ (by rw [e] at hl; simpa using hl) (by simp)).1
  simp only [List.map_nil] at h1
  unfold hardness
  simp only [Lit.subst, e, subst_app, parts, h1]

theorem kbInner_congr {cmp cmp' : Nat → Nat → Nat} (i : Nat) : ∀ (js : List Nat) (v : Nat → Bool), (∀ j ∈ js, cmp i j = cmp' i j) → kbInner cmp i js v = kbInner cmp' i js v
  | [], _, _ => rfl
  | j :: js, v, h => by
    rw [kbInner_cons, kbInner_cons, h j (by simp)]
    exact kbInner_congr i js _ fun j hj => h j (by simp [hj])

theorem kbOuter_congr {cmp cmp' : Nat → Nat → Nat} {n : Nat} (h : ∀ i j, i < n → j < n → cmp i j = cmp' i j) : ∀ (is : List Nat) (v : Nat → Bool), (∀ i ∈ is, i < n) →
    kbOuter cmp n is v = kbOuter cmp' n is v
  | [], _, _ => rfl
  | i :: is, v, hn => by
    simp only [kbOuter]
    rw [kbInner_congr i _ v fun j hj => h i j (hn i (by simp)) (mem_drop_range.1 hj).2]
    exact kbOuter_congr h is _ fun i hi => hn i (by simp [hi])

theorem kbSel_ren {ren : Nat → Nat} {C : List Lit} (hC : Slim C) (hi : InjOn ren (Props.clVars C)) :
    kbSel q (C.map (Lit.subst fun v => .var (ren v))) = kbSel q C := by
  funext i
  unfold kbSel
  rw [List.length_map]
  refine congrFun (kbOuter_congr (fun i j hx hy => ?_) _ _ fun i hi => by simpa using hi) i
  rw [atomAt_lt hx, atomAt_lt hy, atomAt_lt (by simpa using hx), atomAt_lt (by simpa using hy)]
  simp only [List.getElem_map, Lit.subst]
  exact cmpAtoms_ren hi (slim_few hC) (mem_clVars_at hx) (mem_clVars_at hy)

theorem maxHardness_map {f : Lit → Lit} {ls : List Lit} (h : ∀ l ∈ ls, hardness q (f l) = hardness q l) : maxHardness q (ls.map f) = maxHardness q ls := by
  unfold maxHardness
  generalize minHardness = m
  induction ls generalizing m with
  | nil => rfl
  | cons l ls ih =>
    simp only [List.map_cons, List.foldl_cons, h l (by simp)]
    exact ih (fun l hl => h l (by simp [hl])) _

theorem pickFirst_map {f : Lit → Lit} {ok : Lit → Bool} {mx : Int} (hok : ∀ l, ok (f l) = ok l) : ∀ {C : List Lit} {b : Bool}, (∀ l ∈ C, hardness q (f l) = hardness q l) →
    pickFirst q ok mx b (C.map f) = pickFirst q ok mx b C
  | [], _, _ => rfl
  | l :: C, b, h => by
    have ih := fun b => pickFirst_map (mx := mx) hok (C := C) (b := b) fun l hl => h l (by simp [hl])
    simp only [List.map_cons, pickFirst, hok, h l (by simp), ih]

/-- the choice does not depend on the names of variables -/
theorem resolvable_ren {ren : Nat → Nat} {C : List Lit} (hC : Slim C) (hi : InjOn ren (Props.clVars C)) :
    resolvable q (C.map (Lit.subst fun v => .var (ren v))) = resolvable q C := by
  funext i
  have hh : ∀ l ∈ C, hardness q (l.subst fun v => .var (ren v)) = hardness q l := fun l hl =>
    hardness_ren hi (fun v hv => Props.clVars_mem.2 ⟨l, hl, hv⟩) (hC.1 l hl)
  have e1 : (C.map (Lit.subst fun v => .var (ren v))).filter (fun l => l.neg) = (C.filter fun l => l.neg).map (Lit.subst fun v => .var (ren v)) := by
    rw [List.filter_map]; rfl
  have e2 : (C.map (Lit.subst fun v => .var (ren v))).filter (fun l => !l.neg) = (C.filter fun l => !l.neg).map (Lit.subst fun v => .var (ren v)) := by
    rw [List.filter_map]; rfl
  unfold resolvable
  simp only [List.length_map, kbSel_ren hC hi, e1, e2, List.isEmpty_map]
  rw [maxHardness_map fun l hl => hh l (List.mem_of_mem_filter hl), maxHardness_map fun l hl => hh l (List.mem_of_mem_filter hl), maxHardness_map hh,
    pickFirst_map (f := Lit.subst fun v => .var (ren v)) (fun l => rfl) hh, pickFirst_map (f := Lit.subst fun v => .var (ren v)) (fun l => rfl) hh,
    pickFirst_map (f := Lit.subst fun v => .var (ren v)) (fun l => rfl) hh]

/-! ### The choice loses no proofs -/

theorem exists_order (h : Ranked S q rk) : ∃ r : Term → Term → Prop, IsWellOrder Term r ∧ ∀ x y, Gt (rwd rk) y x → r x y := by
  have : IsWellFounded Term fun x y => Gt (rwd rk) y x := ⟨gt_wf h.wordInj rwd_le⟩
  obtain ⟨s, h1, h2⟩ := IsWellFounded.exists_well_order_ge fun x y => Gt (rwd rk) y x
  exact ⟨s, h2, fun x y h => h1 x y h⟩

theorem pick_chosen {ok : Lit → Bool} {C : List Lit} (hne : C.filter ok ≠ []) :
    ∃ (i : Nat) (h : i < C.length), ((pickFirst q ok (maxHardness q (C.filter ok)) false C)[i]?).getD false = true ∧ ok C[i] = true := by
  obtain ⟨l, hl, e⟩ := maxHardness_mem (q := q) hne
  obtain ⟨h1, h2⟩ := List.mem_filter.1 hl
  obtain ⟨i, hi, e1, e2⟩ := pickFirst_some (q := q) (ok := ok) (mx := maxHardness q (C.filter ok)) ⟨l, h1, h2, by omega⟩
  exact ⟨i, hi, by rw [e1]; rfl, e2⟩

/-- the literal allowed by the last loop is as hard as the maximum -/
theorem pickFirst_hard {ok : Lit → Bool} {mx : Int} : ∀ {C : List Lit} {b : Bool} {i : Nat} (h : i < C.length),
    ((pickFirst q ok mx b C)[i]?).getD false = true → mx ≤ hardness q C[i]
  | [], _, _, h => by simp at h
  | x :: C, b, i, h => by
    intro e
    have ih := fun (b : Bool) (j : Nat) (hj : j < C.length) => pickFirst_hard (ok := ok) (mx := mx) (C := C) (b := b) hj
    simp only [pickFirst] at e
    cases i with
    | zero =>
      split at e
      · simp at e
      · split at e
        · simp at e
        · simpa using by omega
    | succ i =>
      have hi : i < C.length := by simpa using h
      have : ∃ b, ((pickFirst q ok mx b C)[i]?).getD false = true := by
        split at e
        · exact ⟨b, by simpa using e⟩
        · split at e
          · exact ⟨b, by simpa using e⟩
          · split at e
            · exact ⟨true, by simpa using e⟩
            · exact ⟨b, by simpa using e⟩
      obtain ⟨b, e⟩ := this
      simpa using ih b i hi e

/-- no literal is harder than the maximum -/
theorem maxHardness_ge {ls : List Lit} {l : Lit} (h : l ∈ ls) : hardness q l ≤ maxHardness q ls :=
  (foldl_max (f := hardness q) ls minHardness).2.2 l h

theorem filter_ne {C : List Lit} {ok : Lit → Bool} : C.filter ok ≠ [] ↔ ∃ l ∈ C, ok l = true := by
  simp [List.filter_eq_nil_iff]

/-- an instance of `F` inside an instance of `E`: the signs of `F` are signs of `E` -/
theorem sign_mem {E F : List Lit} (h : ∃ σ τ : Nat → Term, ∀ l ∈ F, l.subst τ ∈ E.map (Lit.subst σ)) {b : Bool} (hb : ∃ l ∈ F, l.neg = b) : ∃ l ∈ E, l.neg = b := by
  obtain ⟨σ, τ, h⟩ := h
  obtain ⟨l, hl, e⟩ := hb
  obtain ⟨k, hk, e'⟩ := List.mem_map.1 (h l hl)
  exact ⟨k, hk, by have := congrArg Lit.neg e'; simp only [Lit.subst] at this; rw [this, e]⟩

theorem resolvable_choice (h : Ranked S q rk) (hh : q.hard = true → q.kb = true ∨ q.neg = true ∨ q.pos = true) : Choice (fun C => Slim C ∧ ∀ l ∈ C, Loop.Over S l.atom) (resolvable q) := by
  obtain ⟨r, hw, hr⟩ := exists_order h
  cases hkb : q.kb with
  | true =>
    refine ⟨r, fun _ => False, true, hw, fun _ _ h => h.elim, fun C hC _ σ i hi hm => ?_, fun _ _ _ _ _ _ => id⟩
    unfold resolvable
    by_cases hl : C.length ≤ 1
    · rw [if_pos hl]
    · rw [if_neg hl, if_pos hkb]; exact kbSel_max h hr hC σ i hi hm
  | false =>
  cases hneg : q.neg with
  | true =>
    refine ⟨r, fun C => (∃ l ∈ C, l.neg = true) ∧ (q.pos = true → ∃ l ∈ C, l.neg = false), true, hw, ?_, ?_, ?_⟩
    · rintro C hC ⟨h1, h2⟩
      unfold resolvable
      by_cases hl : C.length ≤ 1
      · obtain ⟨l, hl', e⟩ := h1
        obtain ⟨i, hi, rfl⟩ := List.getElem_of_mem hl'
        exact ⟨i, hi, by rw [if_pos hl], e⟩
      · have n1 : C.filter (fun l => l.neg) ≠ [] := filter_ne.2 h1
        obtain ⟨i, hi, e1, e2⟩ := pick_chosen (q := q) n1
        refine ⟨i, hi, ?_, e2⟩
        rw [if_neg hl, if_neg (by simp [hkb])]
        simp only
        rw [if_neg (by simpa using fun h => absurd (List.filter_eq_nil_iff.2 (by simpa using h)) n1), if_neg, if_pos hneg]
        · exact e1
        · intro hc
          simp only [Bool.and_eq_true, List.isEmpty_iff] at hc
          obtain ⟨l, hl, e⟩ := h2 hc.2
          have := List.filter_eq_nil_iff.1 hc.1 l hl
          simp [e] at this
    · intro C hC hS σ i hi hm
      unfold resolvable
      split
      · rfl
      · rw [if_neg (by simp [hkb])]
        simp only
        split
        · exact kbSel_max h hr hC σ i hi hm
        · rename_i hx
          split
          · exact kbSel_max h hr hC σ i hi hm
          · rename_i hy
            exfalso
            apply hS
            simp only [hneg, Bool.and_true, List.isEmpty_iff, Bool.and_eq_true] at hx hy
            refine ⟨filter_ne.1 hx, fun hp => ?_⟩
            obtain ⟨l, hl, e⟩ := filter_ne.1 fun h => hy ⟨h, hp⟩
            exact ⟨l, hl, by simpa using e⟩
    · rintro E F hE hF hS hin ⟨h1, h2⟩
      exact hS ⟨sign_mem hin h1, fun hp => sign_mem hin (h2 hp)⟩
  | false =>
  cases hpos : q.pos with
  | true =>
    refine ⟨r, fun C => ∃ l ∈ C, l.neg = false, false, hw, ?_, ?_, ?_⟩
    · rintro C hC h1
      unfold resolvable
      by_cases hl : C.length ≤ 1
      · obtain ⟨l, hl', e⟩ := h1
        obtain ⟨i, hi, rfl⟩ := List.getElem_of_mem hl'
        exact ⟨i, hi, by rw [if_pos hl], e⟩
      · have n1 : C.filter (fun l => !l.neg) ≠ [] := filter_ne.2 (by simpa using h1)
        obtain ⟨i, hi, e1, e2⟩ := pick_chosen (q := q) n1
        refine ⟨i, hi, ?_, by simpa using e2⟩
        rw [if_neg hl, if_neg (by simp [hkb])]
        simp only
        rw [if_neg (by simp [hneg]), if_neg, if_neg (by simp [hneg]), if_pos hpos]
        · exact e1
        · intro hc
          simp only [Bool.and_eq_true, List.isEmpty_iff] at hc
          exact n1 hc.1
    · intro C hC hS σ i hi hm
      unfold resolvable
      split
      · rfl
      · rw [if_neg (by simp [hkb])]
        simp only
        rw [if_neg (by simp [hneg])]
        split
        · exact kbSel_max h hr hC σ i hi hm
        · rename_i hy
          exfalso
          apply hS
          simp only [hpos, Bool.and_true, List.isEmpty_iff] at hy
          obtain ⟨l, hl, e⟩ := filter_ne.1 hy
          exact ⟨l, hl, by simpa using e⟩
    · rintro E F hE hF hS hin h1
      exact hS (sign_mem hin h1)
  | false =>
    have : resolvable q = fun _ _ => true := by
      funext C i
      have hhard : q.hard = false := by
        cases e : q.hard with
        | false => rfl
        | true => rcases hh e with h | h | h <;> simp_all
      unfold resolvable
      simp [hkb, hneg, hpos, hhard]
    rw [this]
    exact choice_all _

end Gkc.Strategy
