import Verif.Props.Arith
import Verif.DeriveLemmas
/-
C31: computing and semantics.  The whole of the evaluation is true in an interpretation with
equality, so the hypotheses about it in C13-C19 can be met with the real evaluation.
-/
namespace Gkc.Props
open Gkc.Arith Term

/-- computed values of terms: the domain are the terms -/
def termI (arith : Bool) : Interp where
  D := Term
  cst := .const
  fn f as := match computeRec arith (.app f as) with
    | .val v => v
    | _ => .app f as
  tr d := d = .const aTrue

theorem listArgs_some {a x y : Term} : listArgs a = some (x, y) ↔ a = .app (.sym "$list") [x, y] := by
  constructor
  · intro h
    unfold listArgs at h
    split at h
    · cases h; rfl
    · cases h
  · rintro rfl; rfl

theorem isListRec_iff {a : Term} : isListRec a = true ↔ ∃ x y, a = .app (.sym "$list") [x, y] := by
  constructor
  · intro h
    unfold isListRec at h
    split at h
    · exact ⟨_, _, rfl⟩
    · cases h
  · rintro ⟨x, y, rfl⟩; rfl

theorem isNilStr_const {a : Term} (h : isNilStr a = true) : ∃ c, a = .const c := by
  unfold isNilStr at h
  split at h
  · exact ⟨_, rfl⟩
  · exact ⟨_, rfl⟩
  · cases h

theorem isNum_const {a : Term} (h : isNum a = true) : ∃ c, a = .const c := by
  unfold isNum at h
  split at h
  · exact ⟨_, rfl⟩
  · exact ⟨_, rfl⟩
  · cases h

theorem closed_const {a : Term} (hv : isVarT a = false) (ho : isOpen a = false) : ∃ c, a = .const c := by
  cases a with
  | var v => cases hv
  | const c => exact ⟨c, rfl⟩
  | app f as => cases ho

section
variable (arith : Bool) (ρ : Nat → Term)

/-- value of a term -/
def tv (t : Term) : Term := eval (termI arith) ρ t

theorem tv_list (x y : Term) : tv arith ρ (.app (.sym "$list") [x, y]) = .app (.sym "$list") [tv arith ρ x, tv arith ρ y] := by
  simp only [tv, eval, evalL, termI]
  cases arith <;> rfl

theorem tv_const (c : Const) : tv arith ρ (.const c) = .const c := rfl
end

theorem eq_const (n m : Nat) (c d : Const) : eqTerms (n + 1) (.const c) (.const d) = eqTerms (m + 1) (.const c) (.const d) := by
  simp only [eqTerms, listArgs]

theorem eq_list_const (n : Nat) (x y : Term) (d : Const) : eqTerms (n + 1) (.app (.sym "$list") [x, y]) (.const d) =
    if isNum (.const d) || isNilStr (.const d) then some false else none := by
  have h1 : isNum (.app (.sym "$list") [x, y]) = false := rfl
  have h2 : isNilStr (.app (.sym "$list") [x, y]) = false := rfl
  have h3 : isListRec (.app (.sym "$list") [x, y]) = true := rfl
  have h4 : isListRec (.const d) = false := rfl
  have h5 : isOpen (.app (.sym "$list") [x, y]) = true := rfl
  have h6 : listArgs (.const d) = none := rfl
  unfold eqTerms
  rw [if_neg (by simp)]
  simp only [isVarT, h1, h2, h3, h4, h5, h6, Bool.or_false, Bool.false_or, Bool.and_false, Bool.false_and, Bool.and_true,
    Bool.true_and, Bool.true_or, if_true, Bool.false_eq_true, if_false]
  by_cases hn : isNum (.const d) = true
  · simp [hn]
  · by_cases hs : isNilStr (.const d) = true
    · simp [hn, hs]
    · simp [hn, hs]

theorem eq_const_list (n : Nat) (x y : Term) (d : Const) : eqTerms (n + 1) (.const d) (.app (.sym "$list") [x, y]) =
    if isNum (.const d) || isNilStr (.const d) then some false else none := by
  have h1 : isNum (.app (.sym "$list") [x, y]) = false := rfl
  have h2 : isNilStr (.app (.sym "$list") [x, y]) = false := rfl
  have h3 : isListRec (.app (.sym "$list") [x, y]) = true := rfl
  have h4 : isListRec (.const d) = false := rfl
  have h5 : isOpen (.app (.sym "$list") [x, y]) = true := rfl
  have h6 : listArgs (.const d) = none := rfl
  unfold eqTerms
  rw [if_neg (by simp)]
  simp only [isVarT, h1, h2, h3, h4, h5, h6, Bool.or_false, Bool.or_true, Bool.false_or, Bool.and_false, Bool.false_and, Bool.and_true,
    Bool.true_and, Bool.true_or, if_true, Bool.false_eq_true, if_false]
  by_cases hn : isNum (.const d) = true
  · simp [hn]
  · by_cases hs : isNilStr (.const d) = true
    · simp [hn, hs]
    · simp [hn, hs]

theorem eq_list_list (n : Nat) (x y x' y' : Term) : eqTerms (n + 1) (.app (.sym "$list") [x, y]) (.app (.sym "$list") [x', y']) =
    if x = x' ∧ y = y' then some true else match eqTerms n x x' with
      | some true => eqTerms n y y'
      | r => r := by
  have h1 : ∀ x y, isNum (.app (.sym "$list") [x, y]) = false := fun _ _ => rfl
  have h2 : ∀ x y, isNilStr (.app (.sym "$list") [x, y]) = false := fun _ _ => rfl
  have e : (Term.app (.sym "$list") [x, y] = .app (.sym "$list") [x', y']) ↔ x = x' ∧ y = y' := by simp
  rw [eqTerms]
  by_cases h : x = x' ∧ y = y'
  · rw [if_pos h, if_pos (e.2 h)]
  · rw [if_neg h, if_neg (fun h' => h (e.1 h'))]
    simp only [isVarT, h1, h2, Bool.or_false, Bool.and_false, Bool.false_and, Bool.false_eq_true, if_false]
    rfl

/-- what is decided -/
theorem eqTerms_shape {n : Nat} {a b : Term} {v : Bool} (h : eqTerms (n + 1) a b = some v) : a = b ∧ v = true ∨
    (∃ c d, a = .const c ∧ b = .const d) ∨
    (∃ x y d, a = .app (.sym "$list") [x, y] ∧ b = .const d) ∨
    (∃ x y d, a = .const d ∧ b = .app (.sym "$list") [x, y]) ∨
    ∃ x y x' y', a = .app (.sym "$list") [x, y] ∧ b = .app (.sym "$list") [x', y'] := by
  unfold eqTerms at h
  by_cases hab : a = b
  · rw [if_pos hab] at h
    cases h
    exact .inl ⟨hab, rfl⟩
  refine .inr ?_
  rw [if_neg hab] at h
  split at h
  · cases h
  rename_i hv
  have hva : isVarT a = false := by cases e : isVarT a <;> simp_all
  have hvb : isVarT b = false := by cases e : isVarT b <;> simp_all
  have typed : ∀ t, (isListRec t || isNilStr t) = true → (∃ c, t = .const c) ∨ ∃ x y, t = .app (.sym "$list") [x, y] := by
    intro t ht
    rcases Bool.or_eq_true_iff.1 ht with h | h
    · exact .inr (isListRec_iff.1 h)
    · exact .inl (isNilStr_const h)
  split at h
  · rename_i h1
    rw [Bool.and_eq_true] at h1
    obtain ⟨d, rfl⟩ := isNum_const h1.1
    rcases typed _ h1.2 with ⟨c, rfl⟩ | ⟨x, y, rfl⟩
    · exact .inl ⟨_, _, rfl, rfl⟩
    · exact .inr (.inl ⟨_, _, _, rfl, rfl⟩)
  split at h
  · rename_i h1
    rw [Bool.and_eq_true] at h1
    obtain ⟨d, rfl⟩ := isNum_const h1.1
    rcases typed _ h1.2 with ⟨c, rfl⟩ | ⟨x, y, rfl⟩
    · exact .inl ⟨_, _, rfl, rfl⟩
    · exact .inr (.inr (.inl ⟨_, _, _, rfl, rfl⟩))
  split at h
  · rename_i h1
    rw [Bool.and_eq_true] at h1
    obtain ⟨d, rfl⟩ := isNilStr_const h1.2
    obtain ⟨x, y, rfl⟩ := isListRec_iff.1 h1.1
    exact .inr (.inl ⟨_, _, _, rfl, rfl⟩)
  split at h
  · rename_i h1
    rw [Bool.and_eq_true] at h1
    obtain ⟨d, rfl⟩ := isNilStr_const h1.2
    obtain ⟨x, y, rfl⟩ := isListRec_iff.1 h1.1
    exact .inr (.inr (.inl ⟨_, _, _, rfl, rfl⟩))
  split at h
  · rename_i x y x' y' ha hb
    exact .inr (.inr (.inr ⟨x, y, x', y', listArgs_some.1 ha, listArgs_some.1 hb⟩))
  · split at h
    · rename_i h1
      rw [Bool.and_eq_true] at h1
      obtain ⟨c, rfl⟩ := isNilStr_const h1.1
      obtain ⟨d, rfl⟩ := isNilStr_const h1.2
      exact .inl ⟨_, _, rfl, rfl⟩
    · split at h
      · cases h
      · rename_i ho
        have hoa : isOpen a = false := by cases e : isOpen a <;> simp_all
        have hob : isOpen b = false := by cases e : isOpen b <;> simp_all
        obtain ⟨c, rfl⟩ := closed_const hva hoa
        obtain ⟨d, rfl⟩ := closed_const hvb hob
        exact .inl ⟨_, _, rfl, rfl⟩

/-- decided equalities stay so for the values -/
theorem eqTerms_tv (arith : Bool) (ρ : Nat → Term) : ∀ n a b v, eqTerms n a b = some v →
    ∀ m, size (tv arith ρ a) < m → eqTerms m (tv arith ρ a) (tv arith ρ b) = some v := by
  intro n
  induction n with
  | zero => intro a b v h; cases h
  | succ n ih =>
    intro a b v h m hm
    obtain ⟨m, rfl⟩ : ∃ k, m = k + 1 := ⟨m - 1, by omega⟩
    rcases eqTerms_shape h with ⟨rfl, rfl⟩ | ⟨c, d, rfl, rfl⟩ | ⟨x, y, d, rfl, rfl⟩ | ⟨x, y, d, rfl, rfl⟩ | ⟨x, y, x', y', rfl, rfl⟩
    · unfold eqTerms; rw [if_pos rfl]
    · rw [tv_const, tv_const, eq_const m n]; exact h
    · rw [tv_const, tv_list, eq_list_const]; rw [eq_list_const] at h; exact h
    · rw [tv_const, tv_list, eq_const_list]; rw [eq_const_list] at h; exact h
    · rw [tv_list] at hm
      rw [tv_list, tv_list, eq_list_list]
      rw [eq_list_list] at h
      have hs : size (tv arith ρ x) < m ∧ size (tv arith ρ y) < m := by
        have := size_pos (tv arith ρ x); have := size_pos (tv arith ρ y)
        simp only [size_app, sizeL_cons, sizeL_nil] at hm
        omega
      have refl : ∀ k t, 0 < k → eqTerms k t t = some true := by
        intro k t hk
        obtain ⟨k, rfl⟩ : ∃ j, k = j + 1 := ⟨k - 1, by omega⟩
        unfold eqTerms; rw [if_pos rfl]
      by_cases he : x = x' ∧ y = y'
      · rw [if_pos he] at h
        obtain ⟨rfl, rfl⟩ := he
        rw [if_pos ⟨rfl, rfl⟩]; exact h
      rw [if_neg he] at h
      cases h1 : eqTerms n x x' with
      | none => rw [h1] at h; cases h
      | some w =>
        have e1 := ih _ _ _ h1 m hs.1
        rw [h1] at h
        by_cases ht : tv arith ρ x = tv arith ρ x' ∧ tv arith ρ y = tv arith ρ y'
        · rw [if_pos ht]
          rw [← ht.1, refl m _ (by omega)] at e1
          cases e1
          have e2 := ih _ _ _ h m hs.2
          rw [← ht.2, refl m _ (by omega)] at e2
          exact e2
        · rw [if_neg ht, e1]
          cases w with
          | false => exact h
          | true => exact ih _ _ _ h m hs.2

/-- a decided equality is one -/
theorem eqTerms_true : ∀ n a b, eqTerms n a b = some true → a = b := by
  intro n
  induction n with
  | zero => intro a b h; cases h
  | succ n ih =>
    intro a b h
    rcases eqTerms_shape h with ⟨rfl, _⟩ | ⟨c, d, rfl, rfl⟩ | ⟨x, y, d, rfl, rfl⟩ | ⟨x, y, d, rfl, rfl⟩ | ⟨x, y, x', y', rfl, rfl⟩
    · rfl
    · unfold eqTerms at h
      by_cases e : Term.const c = .const d
      · exact e
      · rw [if_neg e] at h
        simp only [listArgs] at h
        repeat' (split at h <;> try cases h)
    · rw [eq_list_const] at h; split at h <;> cases h
    · rw [eq_const_list] at h; split at h <;> cases h
    · rw [eq_list_list] at h
      by_cases he : x = x' ∧ y = y'
      · rw [he.1, he.2]
      · rw [if_neg he] at h
        cases h1 : eqTerms n x x' with
        | none => rw [h1] at h; cases h
        | some w =>
          rw [h1] at h
          cases w with
          | false => cases h
          | true => rw [ih _ _ h1, ih _ _ h]

theorem evalL_tv (arith : Bool) (ρ : Nat → Term) (as : List Term) : evalL (termI arith) ρ as = as.map (tv arith ρ) := by
  induction as with
  | nil => rfl
  | cons a as ih => simp only [evalL, ih, List.map_cons]; rfl

/-- values are constants -/
def CR : Res → Prop
  | .val t => ∃ d, t = .const d
  | _ => True

theorem cr_bool (b : Bool) : CR (Res.bool b) := ⟨_, rfl⟩
theorem cr_dbl (d : Dbl) : CR (Res.dbl d) := by
  cases d
  · exact ⟨_, rfl⟩
  · trivial
theorem cr_int (i : Int) : CR (Res.int i) := ⟨_, rfl⟩
theorem cr_chk (o : Option (Option Int)) : CR (Res.chk o) := by
  rcases o with _ | _ | i
  · trivial
  · trivial
  · exact ⟨_, rfl⟩
theorem cr_gint (d : Option Dbl) : CR (Res.gint d) := by
  unfold Res.gint
  split
  · trivial
  · split
    · trivial
    · exact ⟨_, rfl⟩
theorem cr_remC (a b : Int) : CR (remC a b) := by
  unfold remC
  split
  · exact cr_int _
  · exact cr_chk _

theorem cr_arith2I (c : Comp) (a b : Int) : CR (arith2I c a b) := by
  cases c <;> simp only [arith2I] <;> first
    | trivial
    | exact cr_chk _
    | (split <;> first
        | trivial
        | exact cr_gint _
        | exact cr_remC _ _
        | (split <;> first | trivial | exact cr_gint _ | exact cr_chk _))

theorem cr_arith2D (c : Comp) (x y : Rat) : CR (arith2D c x y) := by
  have hr : CR (remD x y) := by
    unfold remD
    split
    · split
      · trivial
      · exact cr_remC _ _
    · trivial
  cases c <;> simp only [arith2D] <;> first
    | trivial
    | exact cr_dbl _
    | exact hr
    | (split <;> first
        | trivial
        | exact cr_dbl _
        | exact cr_gint _
        | (split <;> exact cr_gint _))

theorem cr_arith2 (c : Comp) (as : List Term) : CR (arith2 c as) := by
  unfold arith2
  split
  · split
    · exact cr_arith2I _ _ _
    · split
      · exact cr_arith2D _ _ _
      · trivial
  · trivial

theorem cr_arith1 (c : Comp) (as : List Term) : CR (arith1 c as) := by
  unfold arith1
  split
  · cases c <;> simp only <;> first
      | trivial
      | exact cr_bool _
      | exact cr_int _
      | exact cr_dbl _
      | (split <;> first | trivial | exact cr_chk _)
  · cases c <;> simp only <;> first
      | trivial
      | exact cr_bool _
      | exact cr_gint _
      | exact ⟨_, rfl⟩
      | (split <;> first | trivial | exact ⟨_, rfl⟩)
  · cases c <;> simp only <;> first
      | trivial
      | exact cr_bool _
      | exact cr_int _
  · trivial

theorem cr_strFun (c : Comp) (as : List Term) : CR (strFun c as) := by
  unfold strFun
  split
  · split
    · split
      · exact cr_bool _
      · split
        · trivial
        · split
          · trivial
          · exact cr_bool _
        · trivial
      · trivial
    · trivial
  · trivial

theorem CR.fixed {r : Res} (h : CR r) {v : Term} (e : r = .val v) (arith : Bool) (ρ : Nat → Term) : tv arith ρ v = v := by
  subst e
  obtain ⟨d, rfl⟩ := h
  rfl

theorem lesseqCore_tv (arith : Bool) (ρ : Nat → Term) {e l : Bool} : ∀ {as : List Term} {v : Term}, lesseqCore e l as = .val v →
    lesseqCore e l (as.map (tv arith ρ)) = .val (tv arith ρ v)
  | [], _, h => by cases h
  | [_], _, h => by cases h
  | a :: b :: r, v, h => by
    have boolv : ∀ c, Res.bool c = .val v → Res.bool c = .val (tv arith ρ v) := fun c e => by
      rw [(cr_bool c).fixed e]; exact e
    simp only [lesseqCore] at h
    simp only [List.map_cons, lesseqCore]
    by_cases hab : a = b
    · subst hab
      rw [if_pos rfl] at h
      rw [if_pos rfl]
      exact boolv _ h
    · rw [if_neg hab] at h
      split at h
      · rw [tv_const, tv_const, if_neg hab]
        exact boolv _ h
      · rw [tv_const, tv_const, if_neg hab]
        split at h
        · rename_i hx hy
          simp only [hx, hy]
          exact boolv _ h
        · cases h
      · cases h

/-- computed values stay so for the values of the arguments -/
theorem compute_tv (arith : Bool) (ρ : Nat → Term) (c : Comp) (as : List Term) (v : Term) (h : compute c as = .val v) :
    compute c (as.map (tv arith ρ)) = .val (tv arith ρ v) := by
  have ar2 : arith2 c as = .val v → arith2 c (as.map (tv arith ρ)) = .val (tv arith ρ v) := by
    intro h
    rw [(cr_arith2 c as).fixed h, ← h]
    unfold arith2 at h
    split at h
    · rfl
    · cases h
  have ar1 : arith1 c as = .val v → arith1 c (as.map (tv arith ρ)) = .val (tv arith ρ v) := by
    intro h
    rw [(cr_arith1 c as).fixed h, ← h]
    unfold arith1 at h
    split at h <;> first | rfl | cases h
  have li : ∀ b, listFun b as = .val v → listFun b (as.map (tv arith ρ)) = .val (tv arith ρ v) := by
    clear h ar2 ar1
    intro b h
    unfold listFun at h
    split at h
    · split at h
      · rename_i hl
        cases listArgs_some.1 hl
        cases h
        simp only [List.map_cons, List.map_nil, listFun, tv_list, listArgs]
        cases b <;> rfl
      · cases h
    · cases h
  have st : strFun c as = .val v → strFun c (as.map (tv arith ρ)) = .val (tv arith ρ v) := by
    intro h
    rw [(cr_strFun c as).fixed h, ← h]
    have uri : ∀ t w, uriStr t = some w → tv arith ρ t = t := by
      intro t w e
      unfold uriStr at e
      split at e <;> first | rfl | cases e
    unfold strFun at h
    split at h
    · split at h
      · rename_i ha hb
        simp only [List.map_cons, strFun, uri _ _ ha, uri _ _ hb, ha, hb]
        split at h
        · rfl
        · split at h
          · cases h
          · rfl
          · cases h
        · cases h
      · cases h
    · cases h
  cases c <;> simp only [compute] at h ⊢ <;> first
    | exact ar2 h
    | exact ar1 h
    | exact li _ h
    | exact st h
    | exact lesseqCore_tv arith ρ h
    | skip
  unfold equalFun at h
  split at h
  · rename_i a b r
    simp only [List.map_cons, equalFun]
    split at h
    · rename_i w hw
      rw [eqTerms_tv arith ρ _ _ _ _ hw _ (Nat.lt_succ_self _)]
      cases w <;> · cases h; rfl
    · cases h
  · cases h

theorem computeRec_tv (arith : Bool) (ρ : Nat → Term) (f : Const) (as : List Term) (v : Term)
    (h : computeRec arith (.app f as) = .val v) :
    computeRec arith (.app f (as.map (tv arith ρ))) = .val (tv arith ρ v) := by
  simp only [computeRec] at h ⊢
  split at h
  · cases h
  · exact compute_tv arith ρ _ as v h

theorem evalRec_tv (arith : Bool) (ρ : Nat → Term) (t t' : Term) (h : evalRec arith t = some t') :
    tv arith ρ t' = tv arith ρ t := by
  cases t with
  | var v => cases h; rfl
  | const c => cases h; rfl
  | app f as =>
    unfold evalRec at h
    split at h
    · cases h
    · cases h; rfl
    · rename_i hv
      cases h
      have e : tv arith ρ (.app f as) = (termI arith).fn f (evalL (termI arith) ρ as) := rfl
      rw [e, evalL_tv]
      simp only [termI, computeRec_tv arith ρ f as _ hv]

theorem eqTerms_self (n : Nat) (a : Term) : eqTerms (n + 1) a a = some true := by
  simp only [eqTerms, if_true]

theorem fn_eq (arith : Bool) (a b : Term) : (termI arith).fn (.sym "=") [a, b] = .const aTrue ↔ a = b := by
  have hc : computeRec arith (.app (.sym "=") [a, b]) = equalFun [a, b] := by cases arith <;> rfl
  simp only [termI, hc, equalFun]
  constructor
  · intro h
    split at h
    · rename_i v hv
      split at hv
      · rename_i w hw
        cases w with
        | true => exact eqTerms_true _ _ _ hw
        | false => cases hv; cases h
      · cases hv
    · cases h
  · rintro rfl
    rw [eqTerms_self]
    rfl

/-- C31: there is an interpretation with equality and with the truth constants in which every
computation of the prover is true.  The conditions on evaluation in C13-C19 are therefore met by the
evaluation that the prover has. -/
theorem C31_evaluation_has_model (arith : Bool) : ∃ I : Interp, EvSound I (evalRec arith) ∧ TruthOk I ∧ EqInterp I := by
  refine ⟨termI arith, fun t t' h ρ => evalRec_tv arith ρ t t' h, ⟨rfl, ?_⟩, Term, fun d => d, fun a b => fn_eq arith a b, fun f as bs e => ?_⟩
  · intro h
    cases h
  · have : ∀ l : List Term, l.map (fun d => d) = l := fun l => by simp
    exact congrArg ((termI arith).fn f) ((this as).symm.trans (e.trans (this bs)))

example : ∃ t t', evalRec true t = some t' ∧ t ≠ t' :=
  ⟨.app (.sym "+") [.const (.int 1), .const (.int 2)], .const (.int 3), by decide +kernel, by decide⟩

end Gkc.Props
