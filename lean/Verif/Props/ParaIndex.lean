import Verif.ParaIndex
import Verif.Props.Index
import Verif.ParaLemmas
/-
C35: the term indexes never miss a paramodulation partner.
-/
namespace Gkc.Props
open Gkc.Index Gkc.Term

theorem head_unif {x y : Term} {c d : Const} (hx : head x = some c) (hy : head y = some d)
    {θ τ : Nat → Term} (e : subst θ x = subst τ y) : c = d := by
  cases x <;> cases y <;> simp [head] at hx hy <;> subst hx hy <;> simp_all

theorem addTerms_holds {h : Const → BitVec 64} {cap : Nat} {sg : Bool} {cl : Nat} :
    ∀ {ts : List (Term × Nat)} {ix ix' : Ix} {ct}, IxHolds ix ct → addTerms h cap sg cl ix ts = some ix' →
    ∃ ct', IxHolds ix' ct' ∧ (∀ g k, ct g k ⊆ ct' g k) ∧
      (∀ t p, (t, p) ∈ ts → ∀ c, head t = some c → (t, cl, p) ∈ ct' sg (h c).toNat) ∧
      (∀ g k e, e ∈ ct' g k → e ∈ ct g k ∨ (g = sg ∧ e.2.1 = cl ∧ (e.1, e.2.2) ∈ ts))
  | [], ix, ix', ct, hi, hs => by
    simp only [addTerms, Option.some.injEq] at hs
    subst hs
    exact ⟨ct, hi, fun _ _ => List.Subset.refl _, by simp, fun _ _ _ h => .inl h⟩
  | (t, p) :: ts, ix, ix', ct, hi, hs => by
    simp only [addTerms] at hs
    rcases hh : head t with _ | c
    · rw [hh] at hs
      obtain ⟨ct', h1, h2, h3, h4⟩ := addTerms_holds hi hs
      refine ⟨ct', h1, h2, ?_, ?_⟩
      · intro t' p' hm c hc
        rcases List.mem_cons.1 hm with e | hm
        · injection e with e1 e2
          rw [e1, hh] at hc
          cases hc
        · exact h3 t' p' hm c hc
      · intro g k e he
        rcases h4 g k e he with he | ⟨a, b, c⟩
        · exact .inl he
        · exact .inr ⟨a, b, List.mem_cons_of_mem _ c⟩
    · rw [hh] at hs
      simp only at hs
      rcases ha : add cap ix sg (h c).toNat t cl p with _ | ix1
      · simp [ha] at hs
      rw [ha] at hs
      obtain ⟨ct', h1, h2, h3, h4⟩ := addTerms_holds (add_holds hi ha) hs
      refine ⟨ct', h1, ?_, ?_, ?_⟩
      · intro g k e he
        apply h2 g k
        simp only [addCt]
        split
        · exact List.mem_cons_of_mem _ he
        · exact he
      · intro t' p' hm c' hc'
        rcases List.mem_cons.1 hm with e | hm
        · injection e with e1 e2
          subst e1; subst e2
          rw [hh] at hc'
          injection hc' with hc'
          subst hc'
          exact h2 _ _ (by simp [addCt])
        · exact h3 t' p' hm c' hc'
      · intro g k e he
        rcases h4 g k e he with he | ⟨a, b, c⟩
        · simp only [addCt] at he
          split at he
          · rename_i hgk
            rcases List.mem_cons.1 he with rfl | he
            · exact .inr ⟨hgk.1, rfl, List.mem_cons_self⟩
            · exact .inl he
          · exact .inl he
        · exact .inr ⟨a, b, List.mem_cons_of_mem _ c⟩

/-- what is to be stored of a clause: `sg` says which index -/
def Offered (ord : Term → Term → Nat) (qf : Bool) (i : Nat) (ls : List (Bool × Lit)) (sg : Bool) (t : Term) (p : Nat) : Prop :=
  ∃ j r l, ls[j]? = some (r, l) ∧ (r = true ∨ qf = true) ∧
    (t, p) ∈ (if sg then (paraTargets (i + j) l.atom).map fun q => (q.1, encPath (i + j) q.2)
      else eqSides ord qf (i + j) l)

theorem offered_cons {ord : Term → Term → Nat} {qf : Bool} {i : Nat} {x : Bool × Lit} {ls : List (Bool × Lit)}
    {sg : Bool} {t : Term} {p : Nat} (h : Offered ord qf i (x :: ls) sg t p) :
    ((x.1 = true ∨ qf = true) ∧ (t, p) ∈ (if sg then (paraTargets i x.2.atom).map fun q => (q.1, encPath i q.2)
      else eqSides ord qf i x.2)) ∨ Offered ord qf (i + 1) ls sg t p := by
  obtain ⟨j, r, l, h1, h2, h3⟩ := h
  cases j with
  | zero =>
    simp only [List.getElem?_cons_zero, Option.some.injEq] at h1
    subst h1
    exact .inl ⟨h2, h3⟩
  | succ j =>
    refine .inr ⟨j, r, l, by simpa using h1, h2, ?_⟩
    have e : i + (j + 1) = i + 1 + j := by omega
    rw [e] at h3
    exact h3

theorem Offered.tail {ord : Term → Term → Nat} {qf : Bool} {i : Nat} {x : Bool × Lit} {ls : List (Bool × Lit)}
    {sg : Bool} {t : Term} {p : Nat} (h : Offered ord qf (i + 1) ls sg t p) : Offered ord qf i (x :: ls) sg t p := by
  obtain ⟨j, r, l, h1, h2, h3⟩ := h
  refine ⟨j + 1, r, l, by simpa using h1, h2, ?_⟩
  have e : i + (j + 1) = i + 1 + j := by omega
  rw [e]
  exact h3

theorem storePara_holds {h : Const → BitVec 64} {cap : Nat} {ord : Term → Term → Nat} {qf : Bool} {cl : Nat} :
    ∀ {ls : List (Bool × Lit)} {i : Nat} {ix ix' : Ix} {ct}, IxHolds ix ct →
      storePara h cap ord qf cl i ix ls = some ix' →
      ∃ ct', IxHolds ix' ct' ∧ (∀ g k, ct g k ⊆ ct' g k) ∧
        (∀ sg t p, Offered ord qf i ls sg t p → ∀ c, head t = some c → (t, cl, p) ∈ ct' sg (h c).toNat) ∧
        (∀ g k e, e ∈ ct' g k → e ∈ ct g k ∨ (e.2.1 = cl ∧ Offered ord qf i ls g e.1 e.2.2))
  | [], i, ix, ix', ct, hi, hs => by
    simp only [storePara, Option.some.injEq] at hs
    subst hs
    refine ⟨ct, hi, fun _ _ => List.Subset.refl _, ?_, fun _ _ _ h => .inl h⟩
    rintro sg t p ⟨j, r, l, h1, _⟩
    simp at h1
  | (r, l) :: ls, i, ix, ix', ct, hi, hs => by
    simp only [storePara] at hs
    split at hs
    · rename_i hrq
      obtain ⟨ct', h1, h2, h3, h4⟩ := storePara_holds hi hs
      refine ⟨ct', h1, h2, ?_, ?_⟩
      · intro sg t p ho
        rcases offered_cons ho with ⟨hr, _⟩ | ho
        · exfalso
          simp only at hr
          cases r <;> cases qf <;> simp_all
        · exact h3 sg t p ho
      · intro g k e he
        rcases h4 g k e he with he | ⟨a, b⟩
        · exact .inl he
        · exact .inr ⟨a, b.tail⟩
    · rename_i hrq
      have hr : r = true ∨ qf = true := by cases r <;> cases qf <;> simp_all
      rcases ha : addTerms h cap true cl ix ((paraTargets i l.atom).map fun q => (q.1, encPath i q.2)) with _ | ix1
      · simp [ha] at hs
      rw [ha] at hs
      simp only [Option.bind_some] at hs
      rcases hb : addTerms h cap false cl ix1 (eqSides ord qf i l) with _ | ix2
      · simp [hb] at hs
      rw [hb] at hs
      obtain ⟨ct1, a1, a2, a3, a4⟩ := addTerms_holds hi ha
      obtain ⟨ct2, b1, b2, b3, b4⟩ := addTerms_holds a1 hb
      obtain ⟨ct', h1, h2, h3, h4⟩ := storePara_holds b1 hs
      refine ⟨ct', h1, fun g k => List.Subset.trans (a2 g k) (List.Subset.trans (b2 g k) (h2 g k)), ?_, ?_⟩
      · intro sg t p ho c hc
        rcases offered_cons ho with ⟨_, hm⟩ | ho
        · cases sg with
          | true => exact h2 _ _ (b2 _ _ (a3 t p hm c hc))
          | false => exact h2 _ _ (b3 t p hm c hc)
        · exact h3 sg t p ho c hc
      · intro g k e he
        rcases h4 g k e he with he | ⟨a, b⟩
        · rcases b4 g k e he with he | ⟨rfl, e1, e2⟩
          · rcases a4 g k e he with he | ⟨rfl, e1, e2⟩
            · exact .inl he
            · exact .inr ⟨e1, 0, r, l, rfl, hr, e2⟩
          · exact .inr ⟨e1, 0, r, l, rfl, hr, e2⟩
        · exact .inr ⟨a, b.tail⟩

/-- storing clauses one after another -/
def storeAllP (h : Const → BitVec 64) (cap : Nat) (ord : Term → Term → Nat) (qf : Bool) :
    Ix → List (Nat × List (Bool × Lit)) → Option Ix
  | ix, [] => some ix
  | ix, (c, ls) :: cs => (storePara h cap ord qf c 0 ix ls).bind fun ix => storeAllP h cap ord qf ix cs

theorem storeAllP_holds {h : Const → BitVec 64} {cap : Nat} {ord : Term → Term → Nat} {qf : Bool} :
    ∀ {cs : List (Nat × List (Bool × Lit))} {ix ix' : Ix} {ct}, IxHolds ix ct →
      storeAllP h cap ord qf ix cs = some ix' →
      ∃ ct', IxHolds ix' ct' ∧ (∀ g k, ct g k ⊆ ct' g k) ∧
        (∀ c ls, (c, ls) ∈ cs → ∀ sg t p, Offered ord qf 0 ls sg t p → ∀ f, head t = some f →
          (t, c, p) ∈ ct' sg (h f).toNat) ∧
        (∀ g k e, e ∈ ct' g k → e ∈ ct g k ∨ ∃ ls, (e.2.1, ls) ∈ cs ∧ Offered ord qf 0 ls g e.1 e.2.2)
  | [], ix, ix', ct, hi, hs => by
    simp only [storeAllP, Option.some.injEq] at hs
    subst hs
    exact ⟨ct, hi, fun _ _ => List.Subset.refl _, by simp, fun _ _ _ h => .inl h⟩
  | (c, ls) :: cs, ix, ix', ct, hi, hs => by
    simp only [storeAllP] at hs
    rcases ha : storePara h cap ord qf c 0 ix ls with _ | ix1
    · simp [ha] at hs
    rw [ha] at hs
    obtain ⟨ct1, g1, g2, g3, g4⟩ := storePara_holds hi ha
    obtain ⟨ct', h1, h2, h3, h4⟩ := storeAllP_holds g1 hs
    refine ⟨ct', h1, fun g k => List.Subset.trans (g2 g k) (h2 g k), ?_, ?_⟩
    · intro c' ls' hm sg t p ho f hf
      rcases List.mem_cons.1 hm with e | hm
      · injection e with e1 e2
        subst e1; subst e2
        exact h2 _ _ (g3 sg t p ho f hf)
      · exact h3 c' ls' hm sg t p ho f hf
    · intro g k e he
      rcases h4 g k e he with he | ⟨ls', hm, ho⟩
      · rcases g4 g k e he with he | ⟨e1, ho⟩
        · exact .inl he
        · exact .inr ⟨ls, by rw [e1]; exact List.mem_cons_self, ho⟩
      · exact .inr ⟨ls', List.mem_cons_of_mem _ hm, ho⟩

theorem lookupTerm_holds {h : Const → BitVec 64} {ix : Ix} {ct} (hi : IxHolds ix ct) {sg : Bool} {t : Term} {f : Const}
    (hf : head t = some f) {r} (hl : lookupTerm h ix sg t = some r) : r = ct sg (h f).toNat := by
  simp only [lookupTerm, hf] at hl
  by_cases hk : 1 ≤ (h f).toNat ∧ (h f).toNat < vecEls
  · rw [bucket_holds hi sg hk] at hl
    injection hl with hl
    exact hl.symm
  · simp only [bucket] at hl
    rw [if_pos (by omega)] at hl
    cases hl

theorem nonVar_head {t : Term} (h : NonVar t) : ∃ f, head t = some f := by
  cases t with
  | var => cases h
  | const c => exact ⟨c, rfl⟩
  | app f as => exact ⟨f, rfl⟩

/-- C35.  Partners for paramodulation into stored clauses.  Store any sequence of clauses, then
look up a side `s` of an equation of the given clause, `s` not a variable.  Take any stored clause,
any of its literals selected for inferences, literal number at most 255, and any position of a
subterm `t` inside the atom, number at most 60000, `t` not a variable.  If `s` and `t` have a
common instance, the candidates contain `t` with this clause, this literal number and this
position. -/
theorem C35_para_into_stored_complete {h : Const → BitVec 64} {cap : Nat} {ord : Term → Term → Nat} {qf : Bool}
    {cs : List (Nat × List (Bool × Lit))} {ix : Ix} (hs : storeAllP h cap ord qf .empty cs = some ix)
    {s : Term} (hns : NonVar s) {r} (hl : lookupTerm h ix true s = some r)
    {c : Nat} {ls : List (Bool × Lit)} (hc : (c, ls) ∈ cs) {i : Nat} {b : Bool} {l : Lit} (hi : ls[i]? = some (b, l))
    (hb : b = true ∨ qf = true) (hi255 : i ≤ 255) {C : Ctx} {t : Term} (ht : l.atom = C.fill t) (hC : C ≠ .hole)
    (hnt : NonVar t) (hp : C.posOf ≤ 60000) {θ τ : Nat → Term} (hu : subst θ t = subst τ s) :
    ∃ path, (t, c, path) ∈ r ∧ decLitnr path = i ∧ decPos path = C.posOf := by
  obtain ⟨ct, h1, _, h3, _⟩ := storeAllP_holds holds_empty hs
  obtain ⟨f, hf⟩ := nonVar_head hns
  obtain ⟨f', hf'⟩ := nonVar_head hnt
  have e := head_unif hf' hf hu
  subst e
  have hm : (t, C.posOf) ∈ (paraSubs 0 0 l.atom).1 := by
    have := paraSubs_complete t hnt C 0 0 (by omega) (fun _ => hC)
    rw [Nat.zero_add] at this
    rw [ht]; exact this
  refine ⟨encPath i C.posOf, ?_, ?_, decPos_enc (by omega)⟩
  · rw [lookupTerm_holds h1 hf hl]
    refine h3 c ls hc true t _ ⟨i, b, l, hi, hb, ?_⟩ f' hf'
    simp only [if_true, Nat.zero_add, paraTargets]
    rw [if_neg (by omega)]
    exact List.mem_map.2 ⟨_, hm, rfl⟩
  · rw [decLitnr_enc (by omega)]
    omega

/-- C35.  Partners for paramodulation from stored clauses.  Look up a subterm `t` of the given
clause, not a variable.  Take any stored clause and any of its positive equation literals selected
for inferences.  If the ordering does not forbid the side (`left` or not) and the side is not a
variable and has a common instance with `t`, the candidates contain the side with this clause; the
literal number (below 256) and the side can be read back. -/
theorem C35_para_from_stored_complete {h : Const → BitVec 64} {cap : Nat} {ord : Term → Term → Nat} {qf : Bool}
    {cs : List (Nat × List (Bool × Lit))} {ix : Ix} (hs : storeAllP h cap ord qf .empty cs = some ix)
    {t : Term} (hnt : NonVar t) {r} (hl : lookupTerm h ix false t = some r)
    {c : Nat} {ls : List (Bool × Lit)} (hc : (c, ls) ∈ cs) {i : Nat} {b : Bool} {a1 a2 : Term} {rest : List Term}
    (hi : ls[i]? = some (b, ⟨false, .app (.sym "=") (a1 :: a2 :: rest)⟩)) (hb : b = true ∨ qf = true)
    {left : Bool} (hns : NonVar (if left then a1 else a2))
    (ho : qf = true ∨ ord a1 a2 = 3 ∨ ord a1 a2 = if left then 1 else 2)
    {θ τ : Nat → Term} (hu : subst θ (if left then a1 else a2) = subst τ t) :
    ∃ path, ((if left then a1 else a2), c, path) ∈ r ∧ decPos path = (if left then 1 else 0) ∧
      (i ≤ 255 → decLitnr path = i) := by
  obtain ⟨ct, h1, _, h3, _⟩ := storeAllP_holds holds_empty hs
  obtain ⟨f, hf⟩ := nonVar_head hnt
  obtain ⟨f', hf'⟩ := nonVar_head hns
  have e := head_unif hf' hf hu
  subst e
  refine ⟨encPath i (if left then 1 else 0), ?_, decPos_enc (by split <;> omega), fun h => ?_⟩
  · rw [lookupTerm_holds h1 hf hl]
    refine h3 c ls hc false _ _ ⟨i, b, _, hi, hb, ?_⟩ f' hf'
    simp only [Bool.false_eq_true, if_false, Nat.zero_add, eqSides, eqArgs, if_true]
    have ho' : (if qf = true then 3 else ord a1 a2) = 3 ∨ (if qf = true then 3 else ord a1 a2) = if left then 1 else 2 := by
      rcases ho with h | h | h
      · simp [h]
      · simp [h]
      · cases qf
        · exact .inr h
        · simp
    cases left with
    | true =>
      apply List.mem_append_left
      rw [if_pos ⟨by rcases ho' with h | h <;> simp [h], by
        simp only [if_true] at hf'
        simp [hf']⟩]
      simp
    | false =>
      apply List.mem_append_right
      rw [if_pos ⟨by rcases ho' with h | h <;> simp [h], by
        simp only [Bool.false_eq_true, if_false] at hf'
        simp [hf']⟩]
      simp
  · rw [decLitnr_enc (by split <;> omega)]
    omega

/-- C35.  Candidates are genuine: a candidate for paramodulation into sits in the clause it is
offered with, at the literal and position it is offered with. -/
theorem C35_para_into_stored_sound {h : Const → BitVec 64} {cap : Nat} {ord : Term → Term → Nat} {qf : Bool}
    {cs : List (Nat × List (Bool × Lit))} {ix : Ix} (hs : storeAllP h cap ord qf .empty cs = some ix)
    {s : Term} (hns : NonVar s) {r} (hl : lookupTerm h ix true s = some r) {t : Term} {c path : Nat}
    (hm : (t, c, path) ∈ r) : ∃ ls, (c, ls) ∈ cs ∧ ∃ b l, ls[decLitnr path]? = some (b, l) ∧ (b = true ∨ qf = true) ∧
      NonVar t ∧ ∃ C : Ctx, l.atom = C.fill t ∧ C.posOf = decPos path ∧ C ≠ .hole := by
  obtain ⟨ct, h1, _, _, h4⟩ := storeAllP_holds holds_empty hs
  obtain ⟨f, hf⟩ := nonVar_head hns
  rw [lookupTerm_holds h1 hf hl] at hm
  rcases h4 _ _ _ hm with h | ⟨ls, hc, j, b, l, hj, hb, ho⟩
  · cases h
  simp only [if_true, Nat.zero_add] at ho
  obtain ⟨q, hq, e⟩ := List.mem_map.1 ho
  simp only [paraTargets] at hq
  split at hq
  · cases hq
  rename_i hj255
  obtain ⟨q1, q2, C, q3, q4, q5⟩ := (paraSubs_sound l.atom 0 0).1 q hq
  simp only [Prod.mk.injEq] at e
  obtain ⟨rfl, rfl⟩ := e
  refine ⟨ls, hc, b, l, ?_, hb, q1, C, q3, ?_, q5 rfl⟩
  · rw [decLitnr_enc (by omega), Nat.mod_eq_of_lt (by omega)]
    exact hj
  · rw [decPos_enc (by omega)]
    omega

/-- `p(f(a)) | f(X)=g(X)`: the side `f(X)` of a given equation meets `f(a)` at literal 0,
position 1 -/
example : ((storeAllP baseHash 100 (fun _ _ => 3) false .empty
      [(7, [(true, ⟨false, .app (.sym "p") [.app (.sym "f") [.const (.sym "a")]]⟩),
            (true, ⟨false, .app (.sym "=") [.app (.sym "f") [.var 0], .app (.sym "g") [.var 0]]⟩)])]).bind fun ix =>
    lookupTerm baseHash ix true (.app (.sym "f") [.var 5])) =
    some [(.app (.sym "f") [.var 0], 7, encPath 1 1), (.app (.sym "f") [.const (.sym "a")], 7, encPath 0 1)] := by
  decide +kernel

end Gkc.Props
