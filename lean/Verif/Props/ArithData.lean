import Verif.Props.ArithSem
import Verif.Props.ArithDiv
/-
C36: equality of typed values and list functions.  C37: comparison of numbers.  C38: strings.
-/
namespace Gkc.Props
open Gkc.Arith Term

/-- constants with a fixed value: numbers, distinct symbols, the empty list, constants of other types -/
def FixedConst : Const → Prop
  | .int _ => True
  | .dbl _ => True
  | .str _ => True
  | .qsym _ => False
  | .sym s => s = "$nil"
  | .oth k => 2 ≤ k

/-- pairs -/
def cons (x y : Term) : Term := .app (.sym "$list") [x, y]

/-- typed values as the documentation has them (html/index.html, "Lists", "Distinct symbols"): different
numbers, distinct symbols and the empty list are different, lists are none of them, and lists are equal
only if their parts are -/
structure TypedInterp (I : Interp) : Prop where
  const_ne : ∀ c d, FixedConst c → FixedConst d → c ≠ d → I.cst c ≠ I.cst d
  list_ne : ∀ x y c, FixedConst c → I.fn (.sym "$list") [x, y] ≠ I.cst c
  list_inj : ∀ x y x' y', I.fn (.sym "$list") [x, y] = I.fn (.sym "$list") [x', y'] → x = x' ∧ y = y'

theorem isNum_fixed {d : Const} (h : isNum (.const d) = true) : FixedConst d := by
  cases d <;> first | trivial | cases h

theorem isNilStr_fixed {d : Const} (h : isNilStr (.const d) = true) : FixedConst d := by
  unfold isNilStr at h
  split at h
  · rename_i e; cases e; rfl
  · rename_i e; cases e; trivial
  · cases h

theorem notOpen_fixed {d : Const} (h : isOpen (.const d) = false) : FixedConst d := by
  cases d with
  | oth k =>
    have : ¬ k ≤ 1 := by simpa [isOpen] using h
    show 2 ≤ k
    omega
  | _ => first | trivial | cases h

/-- constants answered false have fixed and different values -/
theorem eq_const_false {n : Nat} {c d : Const} (h : eqTerms n (.const c) (.const d) = some false) :
    FixedConst c ∧ FixedConst d ∧ c ≠ d := by
  cases n with
  | zero => cases h
  | succ n =>
    unfold eqTerms at h
    by_cases hab : Term.const c = .const d
    · rw [if_pos hab] at h; cases h
    have hne : c ≠ d := fun e => hab (congrArg _ e)
    have l1 : isListRec (.const c) = false := rfl
    have l2 : isListRec (.const d) = false := rfl
    rw [if_neg hab] at h
    simp only [isVarT, l1, l2, listArgs, Bool.false_or, Bool.or_false, Bool.false_and, Bool.and_false, Bool.false_eq_true, if_false] at h
    split at h
    · rename_i e
      rw [Bool.and_eq_true] at e
      exact ⟨isNilStr_fixed e.2, isNum_fixed e.1, hne⟩
    · split at h
      · rename_i e
        rw [Bool.and_eq_true] at e
        exact ⟨isNum_fixed e.1, isNilStr_fixed e.2, hne⟩
      · split at h
        · rename_i e
          rw [Bool.and_eq_true] at e
          exact ⟨isNilStr_fixed e.1, isNilStr_fixed e.2, hne⟩
        · split at h
          · cases h
          · rename_i e
            rw [Bool.or_eq_true, not_or, Bool.not_eq_true, Bool.not_eq_true] at e
            exact ⟨notOpen_fixed e.1, notOpen_fixed e.2, hne⟩

theorem eqTerms_false {I : Interp} (hI : TypedInterp I) (ρ : Nat → I.D) : ∀ n a b, eqTerms n a b = some false →
    eval I ρ a ≠ eval I ρ b := by
  intro n
  induction n with
  | zero => intro a b h; cases h
  | succ n ih =>
    intro a b h
    have lc : ∀ x y d, (if isNum (.const d) || isNilStr (.const d) then some false else none) = some false →
        eval I ρ (.app (.sym "$list") [x, y]) ≠ eval I ρ (.const d) := by
      intro x y d h
      have : FixedConst d := by
        split at h
        · rename_i e
          rw [Bool.or_eq_true] at e
          exact e.elim isNum_fixed isNilStr_fixed
        · cases h
      simp only [eval, evalL]
      exact hI.list_ne _ _ _ this
    rcases eqTerms_shape h with ⟨_, h'⟩ | ⟨c, d, rfl, rfl⟩ | ⟨x, y, d, rfl, rfl⟩ | ⟨x, y, d, rfl, rfl⟩ | ⟨x, y, x', y', rfl, rfl⟩
    · cases h'
    · obtain ⟨h1, h2, h3⟩ := eq_const_false h
      exact hI.const_ne _ _ h1 h2 h3
    · rw [eq_list_const] at h; exact lc x y d h
    · rw [eq_const_list] at h; exact (lc x y d h).symm
    · rw [eq_list_list] at h
      intro e
      simp only [eval, evalL] at e
      obtain ⟨e1, e2⟩ := hI.list_inj _ _ _ _ e
      split at h
      · cases h
      · split at h
        · exact ih _ _ h e2
        · exact ih _ _ h e1

/-- C36: an equation that is computed to true or false has that truth value in every interpretation of
the typed values, whatever the variables and other symbols in it stand for. -/
theorem C36_equality_right (arith : Bool) (a b : Term) (v : Bool)
    (h : computeRec arith (.app (.sym "=") [a, b]) = .bool v) (I : Interp) (hI : TypedInterp I) (ρ : Nat → I.D) :
    v = true ↔ eval I ρ a = eval I ρ b := by
  have hc : computeRec arith (.app (.sym "=") [a, b]) = equalFun [a, b] := by cases arith <;> rfl
  rw [hc] at h
  unfold equalFun at h
  simp only at h
  split at h
  · rename_i w hw
    have hvw : w = v := by
      cases w <;> cases v <;> first | rfl | (cases h)
    subst hvw
    cases w with
    | true => exact ⟨fun _ => by rw [eqTerms_true _ _ _ hw], fun _ => rfl⟩
    | false => exact ⟨fun h => (by cases h), fun h => absurd h (eqTerms_false hI ρ _ _ _ hw)⟩
  · cases h

/-- data: numbers, distinct symbols and lists of data -/
inductive Data : Term → Prop
  | int (i) : Data (.const (.int i))
  | dbl (x) : Data (.const (.dbl x))
  | str (s) : Data (.const (.str s))
  | nil : Data (.const (.sym "$nil"))
  | cons {x y} : Data x → Data y → Data (cons x y)

theorem eqTerms_data {a : Term} (ha : Data a) : ∀ {b : Term}, Data b → ∀ n, size a < n → eqTerms n a b = some (decide (a = b)) := by
  have cc : ∀ c d : Const, Data (.const c) → Data (.const d) → ∀ n, 0 < n → eqTerms n (.const c) (.const d) = some (decide (Term.const c = .const d)) := by
    intro c d hc hd n hn
    obtain ⟨n, rfl⟩ : ∃ m, n = m + 1 := ⟨n - 1, by omega⟩
    unfold eqTerms
    by_cases e : Term.const c = .const d
    · rw [if_pos e]; simp [e]
    · rw [if_neg e]
      have : decide (Term.const c = .const d) = false := by simpa using e
      rw [this]
      cases hc <;> cases hd <;> first | rfl | exact absurd rfl e
  have cd : ∀ d : Const, Data (.const d) → (isNum (.const d) || isNilStr (.const d)) = true := by
    intro d hd
    cases hd <;> rfl
  induction ha with
  | cons hx hy ihx ihy =>
    rename_i x y
    intro b hb n hn
    obtain ⟨n, rfl⟩ : ∃ m, n = m + 1 := ⟨n - 1, by omega⟩
    have hs : size x < n ∧ size y < n := by
      have := size_pos x; have := size_pos y
      simp only [cons, size_app, sizeL_cons, sizeL_nil] at hn
      omega
    cases hb with
    | cons hx' hy' =>
      rename_i x' y'
      have hiff : (cons x y = cons x' y') ↔ x = x' ∧ y = y' := by simp [cons]
      show eqTerms (n + 1) (.app (.sym "$list") [x, y]) (.app (.sym "$list") [x', y']) = _
      rw [eq_list_list, ihx hx' n hs.1, ihy hy' n hs.2]
      by_cases e1 : x = x'
      · by_cases e2 : y = y' <;> simp [e1, e2, cons]
      · simp [e1, cons]
    | _ =>
      show eqTerms (n + 1) (.app (.sym "$list") [x, y]) (.const _) = _
      rw [eq_list_const, cd _ (by constructor), if_pos rfl]
      simp [cons]
  | _ =>
    intro b hb n hn
    obtain ⟨n, rfl⟩ : ∃ m, n = m + 1 := ⟨n - 1, by omega⟩
    cases hb with
    | cons hx' hy' =>
      rename_i x' y'
      show eqTerms (n + 1) (.const _) (.app (.sym "$list") [x', y']) = _
      rw [eq_const_list, cd _ (by constructor), if_pos rfl]
      simp [cons]
    | _ => exact cc _ _ (by constructor) (by constructor) _ (by omega)

/-- C36: equations between data are always decided, and rightly. -/
theorem C36_data_equality_decided (arith : Bool) (a b : Term) (ha : Data a) (hb : Data b) :
    computeRec arith (.app (.sym "=") [a, b]) = .bool (decide (a = b)) := by
  have hc : computeRec arith (.app (.sym "=") [a, b]) = equalFun [a, b] := by cases arith <;> rfl
  rw [hc]
  unfold equalFun
  simp only [eqTerms_data ha hb _ (Nat.lt_succ_self _)]

/-- the typed interpretations exist -/
theorem typedInterp_exists : ∃ I : Interp, TypedInterp I :=
  ⟨⟨Term, .const, .app, fun _ => True⟩, by
    refine ⟨fun c d _ _ h e => h (by cases e; rfl), fun x y c _ e => (by cases e), fun x y x' y' e => ?_⟩
    cases e
    exact ⟨rfl, rfl⟩⟩

example : ∃ a b, computeRec true (.app (.sym "=") [a, b]) = .bool false ∧
    a = cons (.var 1) (cons (.const (.int 1)) (.app (.sym "f") [.var 2])) ∧ b = cons (.var 1) (cons (.const (.int 2)) (.var 3)) :=
  ⟨_, _, by decide +kernel, rfl, rfl⟩
example : Data (cons (.const (.str "a")) (cons (.const (.int 1)) (.const (.sym "$nil")))) :=
  .cons (.str _) (.cons (.int _) .nil)

/-- C36: the parts of a list. -/
theorem C36_list_parts (x y : Term) : computeRec true (.app (.sym "$first") [cons x y]) = .val x ∧
    computeRec true (.app (.sym "$rest") [cons x y]) = .val y := ⟨rfl, rfl⟩

/-- C36: anything but a list is left alone by the list functions. -/
theorem C36_list_parts_kept (t : Term) (h : ¬ ∃ x y, t = cons x y) :
    computeRec true (.app (.sym "$first") [t]) = .keep ∧ computeRec true (.app (.sym "$rest") [t]) = .keep := by
  have : ∀ b, listFun b [t] = .keep := by
    intro b
    unfold listFun
    simp only
    split
    · rename_i hl
      exact absurd ⟨_, _, listArgs_some.1 hl⟩ h
    · rfl
  exact ⟨this true, this false⟩

/-- C36 is false for the type predicates on lists: `$is_list`, `$is_map`, `$is_atom` and `$is_distinct`
of a list are computed to its first element, and are left alone for anything else. -/
theorem C36_type_predicates_wrong (f : String) (hf : f ∈ ["$is_list", "$is_map", "$is_atom", "$is_distinct"]) :
    (∀ x y, computeRec true (.app (.sym f) [cons x y]) = .val x) ∧
    (∀ i, computeRec true (.app (.sym f) [num i]) = .keep) ∧
    (∀ s, computeRec true (.app (.sym f) [.const (.str s)]) = .keep) ∧
    computeRec true (.app (.sym f) [cons (.const aFalse) (.const (.sym "$nil"))]) = .bool false := by
  simp only [List.mem_cons, List.not_mem_nil, or_false] at hf
  rcases hf with rfl | rfl | rfl | rfl <;> exact ⟨fun _ _ => rfl, fun _ => rfl, fun _ => rfl, rfl⟩

/-! ### Comparison -/

/-- values of numbers -/
def numVal : Const → Option Rat
  | .int i => some i
  | .dbl (.fin q) => some q
  | _ => none

/-- integers that are doubles -/
def SmallInt : Const → Prop
  | .int i => i.natAbs ≤ 2 ^ 53
  | _ => True

theorem numD_val {c : Const} {x : Rat} (h : numVal c = some x) (hs : SmallInt c) : numD c = some (.fin x) := by
  cases c with
  | int i => cases h; simp only [numD]; rw [rnd_int hs]
  | dbl d =>
    cases d with
    | fin q => cases h; rfl
    | inf b => cases h
  | _ => cases h

theorem lesseqCore_val (e l : Bool) {c d : Const} {x y : Rat} (hc : numVal c = some x) (hd : numVal d = some y)
    (sc : SmallInt c) (sd : SmallInt d) : lesseqCore e l [.const c, .const d] =
      .bool (if c = d then e else if l then decide (x < y) else decide (x > y)) := by
  unfold lesseqCore
  simp only [Term.const.injEq]
  by_cases h : c = d
  · rw [if_pos h, if_pos h]
  · rw [if_neg h, if_neg h]
    split
    · rename_i i j e1 e2
      cases e1; cases e2; cases hc; cases hd
      simp
    · rename_i e1 e2
      cases e1; cases e2
      rw [numD_val hc sc, numD_val hd sd]
    · rename_i h1 h2
      exact absurd rfl (h2 c d rfl)

/-- C37: strict comparison of numbers agrees with the order of their values, also between integers and
doubles, for integers up to 2^53.  Missing: greater integers compared to doubles, for which it is false
(`C37_large_integer_wrong`). -/
theorem C37_strict_comparison_partial (c d : Const) (x y : Rat) (hc : numVal c = some x) (hd : numVal d = some y)
    (sc : SmallInt c) (sd : SmallInt d) :
    computeRec true (.app (.sym "$less") [.const c, .const d]) = .bool (decide (x < y)) ∧
    computeRec true (.app (.sym "$greater") [.const c, .const d]) = .bool (decide (x > y)) := by
  have same : c = d → x = y := by
    rintro rfl
    exact Option.some.inj (hc.symm.trans hd)
  refine ⟨(lesseqCore_val false true hc hd sc sd).trans ?_, (lesseqCore_val false false hc hd sc sd).trans ?_⟩ <;>
  · congr 1
    split
    · rename_i h; simp [same h]
    · simp

/-- C37: `$lesseq` and `$greatereq` agree with the order when the numbers are of the same type or of
different value.  Missing: an integer and a double of the same value (`C37_lesseq_mixed_wrong`). -/
theorem C37_lesseq_partial (c d : Const) (x y : Rat) (hc : numVal c = some x) (hd : numVal d = some y)
    (sc : SmallInt c) (sd : SmallInt d) (h : x = y → c = d) :
    computeRec true (.app (.sym "$lesseq") [.const c, .const d]) = .bool (decide (x ≤ y)) ∧
    computeRec true (.app (.sym "$greatereq") [.const c, .const d]) = .bool (decide (x ≥ y)) := by
  have same : c = d → x = y := by
    rintro rfl
    exact Option.some.inj (hc.symm.trans hd)
  refine ⟨(lesseqCore_val true true hc hd sc sd).trans ?_, (lesseqCore_val true false hc hd sc sd).trans ?_⟩ <;>
  · congr 1
    split
    · rename_i e; simp [same e]
    · rename_i e
      have : x ≠ y := fun e' => e (h e')
      rcases lt_or_gt_of_ne this with h | h <;> simp [h, h.le, h.not_gt, h.not_ge]

/-- C37: any two doubles meet the condition of `C37_lesseq_partial` -/
example (p q : Rat) : p = q → Const.dbl (.fin p) = .dbl (.fin q) := fun h => by rw [h]

/-- C37 is false: `1 <= 1.0` and `1 >= 1.0` are computed to false. -/
theorem C37_lesseq_mixed_wrong : computeRec true (.app (.sym "$lesseq") [num 1, .const (.dbl (.fin 1))]) = .bool false ∧
    computeRec true (.app (.sym "$greatereq") [num 1, .const (.dbl (.fin 1))]) = .bool false ∧
    computeRec true (.app (.sym "$less") [num 1, .const (.dbl (.fin 1))]) = .bool false ∧
    computeRec true (.app (.sym "$greater") [num 1, .const (.dbl (.fin 1))]) = .bool false := by
  refine ⟨?_, ?_, ?_, ?_⟩ <;> decide +kernel

/-- C37 is false: `2^53+1 > 2^53` is computed to false when the second is a double. -/
theorem C37_large_integer_wrong :
    computeRec true (.app (.sym "$greater") [num (2 ^ 53 + 1), .const (.dbl (.fin (2 ^ 53)))]) = .bool false := by
  decide +kernel

example : numVal (.int 1) = some 1 ∧ numVal (.dbl (.fin (3 / 2))) = some (3 / 2) ∧ SmallInt (.int 1) := ⟨rfl, rfl, show (1 : Int).natAbs ≤ 2 ^ 53 by decide⟩

/-! ### Strings -/

theorem isSub_iff (as : List Char) : ∀ bs, isSub as bs = true ↔ as <:+: bs := by
  intro bs
  induction bs with
  | nil => simp [isSub]
  | cons b bs ih =>
    rw [isSub, Bool.or_eq_true, ih, List.isPrefixOf_iff_prefix, List.infix_cons_iff]

/-- C38: `$strlen` is the length, and `$substr` of distinct symbols tells whether the first is a
contiguous part of the second. -/
theorem C38_substr_right (a b : String) :
    computeRec true (.app (.sym "$strlen") [.const (.str a)]) = .val (num a.toList.length) ∧
    computeRec true (.app (.sym "$substr") [.const (.str a), .const (.str b)]) = .bool (decide (a.toList <:+: b.toList)) := by
  refine ⟨rfl, ?_⟩
  show Res.bool (isSub a.toList b.toList) = _
  congr 1
  rw [Bool.eq_iff_iff, isSub_iff]
  simp

/-- C38: `$substrat` with a first string of one character.  Missing: longer strings
(`C38_substrat_wrong`), and positions too far right, where it is left alone and not false. -/
theorem C38_substrat_partial (a : Char) (b : String) (n : Nat) (hn : n < b.toList.length) :
    computeRec true (.app (.sym "$substrat") [.const (.str (String.ofList [a])), .const (.str b), num n]) =
      .bool (decide ([a] <+: b.toList.drop n)) := by
  show (if (n : Int) < 0 ∨ (n : Int) > b.toList.length ∨ ((String.ofList [a]).toList.length : Int) + n > b.toList.length then Res.keep
    else Res.bool (b.toList[(n : Int).toNat]? == (String.ofList [a]).toList[0]?)) = _
  rw [if_neg (by simp only [String.toList_ofList, List.length_singleton]; omega)]
  congr 1
  rw [Bool.eq_iff_iff]
  simp only [String.toList_ofList, Int.toNat_natCast, beq_iff_eq, decide_eq_true_eq]
  rw [List.drop_eq_getElem_cons hn, List.getElem?_eq_getElem hn]
  simp only [List.getElem?_cons_zero, Option.some.injEq, List.cons_prefix_cons, List.nil_prefix, and_true]
  exact eq_comm

/-- C38 is false: "ab" is found in "ac" at position 0, and the empty string nowhere but at the end. -/
theorem C38_substrat_wrong :
    computeRec true (.app (.sym "$substrat") [.const (.str "ab"), .const (.str "ac"), num 0]) = .bool true ∧
    computeRec true (.app (.sym "$substrat") [.const (.str ""), .const (.str "ac"), num 0]) = .bool false ∧
    computeRec true (.app (.sym "$substrat") [.const (.str "ab"), .const (.str "a"), num 0]) = .keep := by
  refine ⟨?_, ?_, ?_⟩ <;> decide +kernel

/-- C38 is false: `$substr` is also computed for ordinary constants, by their names. -/
theorem C38_substr_of_constants :
    computeRec true (.app (.sym "$substr") [.const (.sym "a"), .const (.sym "b")]) = .bool false := by decide +kernel

end Gkc.Props
