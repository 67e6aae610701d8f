import Verif.Arith
/-
C31: integer arithmetic.
-/
namespace Gkc.Props
open Gkc.Arith Term

theorem fits_iff {a : Int} : Fits a ↔ -9223372036854775808 ≤ a ∧ a ≤ 9223372036854775807 := Iff.rfl

theorem ck_eq {a : Int} (h : Fits a) : ck a = some a := by simp [ck, h]

/-- the value, or nothing -/
def fit (x : Int) : Option Int := if Fits x then some x else none

theorem fit_guard {x : Int} {c : Prop} [Decidable c] (hc : c ↔ ¬ Fits x) :
    (if c then some none else (ck x).map some) = some (fit x) := by
  unfold fit
  by_cases hf : Fits x
  · rw [if_neg (by rw [hc]; exact fun h => h hf), ck_eq hf, if_pos hf]; rfl
  · rw [if_pos (hc.2 hf), if_neg hf]

theorem fit_ok {x : Int} (h : Fits x) : (ck x).map some = some (fit x) := by
  rw [ck_eq h, fit, if_pos h]; rfl

theorem addChecked_eq {a b : Int} (ha : Fits a) (hb : Fits b) : addChecked a b = some (fit (a + b)) := by
  rw [fits_iff] at ha hb
  unfold addChecked iMin iMax
  split
  · rw [ck_eq (by rw [fits_iff]; omega), Option.bind_some]
    exact fit_guard (by rw [fits_iff]; omega)
  · split
    · rw [ck_eq (by rw [fits_iff]; omega), Option.bind_some]
      exact fit_guard (by rw [fits_iff]; omega)
    · exact fit_ok (by rw [fits_iff]; omega)

theorem subChecked_eq {a b : Int} (ha : Fits a) (hb : Fits b) : subChecked a b = some (fit (a - b)) := by
  rw [fits_iff] at ha hb
  unfold subChecked iMin iMax
  split
  · rw [ck_eq (by rw [fits_iff]; omega), Option.bind_some]
    exact fit_guard (by rw [fits_iff]; omega)
  · split
    · rw [ck_eq (by rw [fits_iff]; omega), Option.bind_some]
      exact fit_guard (by rw [fits_iff]; omega)
    · exact fit_ok (by rw [fits_iff]; omega)

/-- a quotient fits unless it is the least integer by -1 -/
theorem tdiv_fits {a b : Int} (ha : Fits a) (hb : b ≠ 0) (h : ¬ (a = iMin ∧ b = -1)) : Fits (a.tdiv b) := by
  have h1 : (a.tdiv b).natAbs = a.natAbs / b.natAbs := Int.natAbs_tdiv a b
  have h2 : a.natAbs / b.natAbs ≤ a.natAbs := Nat.div_le_self _ _
  rw [fits_iff] at ha ⊢
  by_cases hm : a = -9223372036854775808
  · subst hm
    by_cases h1' : b = 1
    · subst h1'; decide
    · have hb1 : b ≠ -1 := fun e => h ⟨rfl, e⟩
      have h3 : 2 ≤ b.natAbs := by omega
      have h4 : (-9223372036854775808 : Int).natAbs / b.natAbs ≤ (-9223372036854775808 : Int).natAbs / 2 :=
        Nat.div_le_div_left h3 (by decide)
      omega
  · omega

theorem cdiv_eq {a b : Int} (ha : Fits a) (hb : b ≠ 0) (h : ¬ (a = iMin ∧ b = -1)) : cdiv a b = some (a.tdiv b) := by
  unfold cdiv
  rw [if_neg hb, ck_eq (tdiv_fits ha hb h)]

theorem mulChecked_eq {a b : Int} (ha : Fits a) (hb : Fits b) : mulChecked a b = some (fit (a * b)) := by
  have fM : Fits iMax := by decide
  have fm : Fits iMin := by decide
  have hM : iMax = 9223372036854775807 := rfl
  have hm : iMin = -9223372036854775808 := rfl
  have nM : ¬ iMax = iMin := by decide
  unfold mulChecked
  split
  · rename_i h
    have : a * b = 0 := by rcases h with h | h <;> simp [h]
    rw [this]; decide
  rename_i h0
  have ha0 : a ≠ 0 := fun h => h0 (.inl h)
  have hb0 : b ≠ 0 := fun h => h0 (.inr h)
  split
  · rename_i h1
    subst h1
    have e : -1 * b = 0 - b := by omega
    rw [e]
    exact fit_guard (by rw [fits_iff] at *; omega)
  split
  · rename_i h1
    subst h1
    have e : a * -1 = 0 - a := by omega
    rw [e]
    exact fit_guard (by rw [fits_iff] at *; omega)
  rename_i ha1 hb1
  split
  · rename_i h
    rw [cdiv_eq fM hb0 (fun e => nM e.1), Option.bind_some]
    refine fit_guard ?_
    rw [Int.tdiv_eq_ediv_of_nonneg (by decide), gt_iff_lt, Int.ediv_lt_iff_lt_mul h.2, fits_iff]
    have hp : 0 < a * b := Int.mul_pos h.1 h.2
    omega
  split
  · rename_i h
    rw [cdiv_eq fm ha0 (fun e => ha1 e.2), Option.bind_some]
    refine fit_guard ?_
    have e : iMin.tdiv a = -(9223372036854775808 / a) := by
      rw [show iMin = -9223372036854775808 from rfl, Int.neg_tdiv, Int.tdiv_eq_ediv_of_nonneg (by decide)]
    have e2 : b < -(9223372036854775808 / a) ↔ 9223372036854775808 / a < -b := by omega
    rw [e, e2, Int.ediv_lt_iff_lt_mul h.1, fits_iff, Int.neg_mul, Int.mul_comm b a]
    have hp : 0 < a * -b := Int.mul_pos h.1 (by omega)
    rw [Int.mul_neg] at hp
    omega
  split
  · rename_i h
    rw [cdiv_eq fm hb0 (fun e => hb1 e.2), Option.bind_some]
    refine fit_guard ?_
    have e : iMin.tdiv b = -(9223372036854775808 / b) := by
      rw [show iMin = -9223372036854775808 from rfl, Int.neg_tdiv, Int.tdiv_eq_ediv_of_nonneg (by decide)]
    have e2 : a < -(9223372036854775808 / b) ↔ 9223372036854775808 / b < -a := by omega
    rw [e, e2, Int.ediv_lt_iff_lt_mul h.2, fits_iff, Int.neg_mul]
    have hp : 0 < -a * b := Int.mul_pos (by omega) h.2
    rw [Int.neg_mul] at hp
    omega
  · rename_i g1 g2 g3
    have an : a < 0 := by omega
    have bn : b < 0 := by omega
    rw [cdiv_eq fM hb0 (fun e => nM e.1), Option.bind_some]
    refine fit_guard ?_
    have e : iMax.tdiv b = -(9223372036854775807 / -b) := by
      rw [← Int.tdiv_eq_ediv_of_nonneg (by decide), Int.tdiv_neg, Int.neg_neg]; rfl
    have e2 : a < -(9223372036854775807 / -b) ↔ 9223372036854775807 / -b < -a := by omega
    rw [e, e2, Int.ediv_lt_iff_lt_mul (by omega), fits_iff, Int.neg_mul_neg]
    have hp : 0 < -a * -b := Int.mul_pos (by omega) (by omega)
    rw [Int.neg_mul_neg] at hp
    omega

/-! ### C31: sum, difference, product, comparison -/

/-- an integer constant -/
def num (i : Int) : Term := .const (.int i)
/-- 64-bit signed -/
def I64 (i : Int) : Prop := -2^63 ≤ i ∧ i < 2^63
instance (i : Int) : Decidable (I64 i) := inferInstanceAs (Decidable (_ ∧ _))

theorem fits_i64 {i : Int} : Fits i ↔ I64 i := by
  rw [fits_iff]; unfold I64; omega

theorem chk_fit (x : Int) : Res.chk (some (fit x)) = if I64 x then .val (num x) else .keep := by
  unfold fit
  by_cases h : Fits x
  · rw [if_pos h, if_pos (fits_i64.1 h)]; rfl
  · rw [if_neg h, if_neg (fun h' => h (fits_i64.2 h'))]; rfl

/-- C31: `$sum` of two integers is their sum, or left alone when the sum does not fit. -/
theorem C31_sum_exact_or_kept (a b : Int) (ha : I64 a) (hb : I64 b) :
    computeRec true (.app (.sym "$sum") [num a, num b]) = if I64 (a + b) then .val (num (a + b)) else .keep := by
  rw [← chk_fit, ← addChecked_eq (fits_i64.2 ha) (fits_i64.2 hb)]; rfl

/-- C31: `$difference` likewise. -/
theorem C31_difference_exact_or_kept (a b : Int) (ha : I64 a) (hb : I64 b) :
    computeRec true (.app (.sym "$difference") [num a, num b]) = if I64 (a - b) then .val (num (a - b)) else .keep := by
  rw [← chk_fit, ← subChecked_eq (fits_i64.2 ha) (fits_i64.2 hb)]; rfl

/-- C31: `$product` likewise. -/
theorem C31_product_exact_or_kept (a b : Int) (ha : I64 a) (hb : I64 b) :
    computeRec true (.app (.sym "$product") [num a, num b]) = if I64 (a * b) then .val (num (a * b)) else .keep := by
  rw [← chk_fit, ← mulChecked_eq (fits_i64.2 ha) (fits_i64.2 hb)]; rfl

/-- C31: `$uminus` likewise. -/
theorem C31_uminus_exact_or_kept (a : Int) (ha : I64 a) :
    computeRec true (.app (.sym "$uminus") [num a]) = if I64 (-a) then .val (num (-a)) else .keep := by
  show (if a = iMin then Res.keep else Res.chk ((ck (0 - a)).map some)) = _
  have hm : iMin = -9223372036854775808 := rfl
  rw [← fits_i64, fits_iff] at ha
  by_cases h : a = iMin
  · rw [if_pos h, if_neg (by rw [← fits_i64, fits_iff]; omega)]
  · have hf : Fits (-a) := by rw [fits_iff]; omega
    rw [if_neg h, if_pos (fits_i64.1 hf), Int.zero_sub, ck_eq hf]; rfl

/-- C31: comparisons of integers are decided, correctly. -/
theorem C31_comparisons_exact (a b : Int) :
    computeRec true (.app (.sym "$less") [num a, num b]) = .bool (decide (a < b)) ∧
    computeRec true (.app (.sym "$lesseq") [num a, num b]) = .bool (decide (a ≤ b)) ∧
    computeRec true (.app (.sym "$greater") [num a, num b]) = .bool (decide (a > b)) ∧
    computeRec true (.app (.sym "$greatereq") [num a, num b]) = .bool (decide (a ≥ b)) := by
  have key : ∀ e l, lesseqCore e l [num a, num b] = .bool (if a = b then e else if l then decide (a < b) else decide (a > b)) := by
    intro e l
    unfold lesseqCore num
    by_cases h : a = b
    · subst h; simp
    · simp [h]
  refine ⟨(key false true).trans ?_, (key true true).trans ?_, (key false false).trans ?_, (key true false).trans ?_⟩ <;>
  · congr 1
    split
    · simp; omega
    · simp; try omega

/-- no undefined behaviour in a result -/
def Res.defined : Res → Prop
  | .ub => False
  | _ => True

/-- the integer constants of a term list, at the top, fit -/
def ArgsFit (as : List Term) : Prop := ∀ i, num i ∈ as → I64 i

theorem gint_defined (d : Option Dbl) : Res.defined (Res.gint d) := by
  unfold Res.gint
  split
  · trivial
  · split <;> trivial

theorem dbl_defined (d : Dbl) : Res.defined (Res.dbl d) := by cases d <;> trivial

theorem remC_defined {a b : Int} (ha : Fits a) (hb : b ≠ 0) : Res.defined (remC a b) := by
  unfold remC
  split
  · trivial
  · rename_i h
    unfold cmod
    rw [if_neg hb, ck_eq (tdiv_fits ha hb h)]
    trivial

theorem trunc_fits {q : Rat} (h : (iMin : Rat) ≤ q ∧ q ≤ iMax) : Fits (trunc q) := by
  unfold trunc
  split
  · refine ⟨?_, Rat.ceil_le_iff.2 h.2⟩
    exact Rat.intCast_le_intCast.1 (Rat.le_trans h.1 Rat.le_ceil)
  · refine ⟨Rat.le_floor_iff.2 h.1, ?_⟩
    exact Rat.intCast_le_intCast.1 (Rat.le_trans (Rat.floor_le q) h.2)

theorem toGint_fits {d : Dbl} {i : Int} (h : toGint d = some i) : Fits i := by
  cases d with
  | inf b => cases h
  | fin q =>
    by_cases hq : (iMin : Rat) ≤ q ∧ q ≤ iMax
    · simp only [toGint, if_pos hq, Option.some.injEq] at h
      exact h ▸ trunc_fits hq
    · simp only [toGint, if_neg hq] at h; cases h

theorem arith2I_defined (c : Comp) {a b : Int} (ha : Fits a) (hb : Fits b) : Res.defined (arith2I c a b) := by
  have ch : ∀ x, Res.defined (Res.chk (some (fit x))) := fun x => by rw [chk_fit]; split <;> trivial
  cases c <;> simp only [arith2I] <;> try trivial
  · rw [addChecked_eq ha hb]; exact ch _
  · rw [subChecked_eq ha hb]; exact ch _
  · rw [mulChecked_eq ha hb]; exact ch _
  · split
    · trivial
    · split
      · trivial
      · rename_i h0 h1
        rw [cdiv_eq ha h0 h1]; trivial
  · split
    · trivial
    · split <;> exact gint_defined _
  · split
    · trivial
    · exact gint_defined _
  · split
    · trivial
    · exact gint_defined _
  · split
    · trivial
    · exact remC_defined ha ‹_›
  · split
    · trivial
    · exact remC_defined ha ‹_›
  · split
    · trivial
    · exact remC_defined ha ‹_›

theorem arith2D_defined (c : Comp) (x y : Rat) : Res.defined (arith2D c x y) := by
  have hr : Res.defined (remD x y) := by
    unfold remD
    split
    · split
      · trivial
      · rename_i a b ha hb h0
        exact remC_defined (toGint_fits ha) h0
    · trivial
  cases c <;> simp only [arith2D] <;> first
    | trivial
    | exact dbl_defined _
    | exact hr
    | (split <;> first
        | trivial
        | exact dbl_defined _
        | exact gint_defined _
        | (split <;> exact gint_defined _))

theorem arith2_defined (c : Comp) {as : List Term} (h : ArgsFit as) : Res.defined (arith2 c as) := by
  unfold arith2
  split
  · split
    · rename_i i j
      exact arith2I_defined c (fits_i64.2 (h i (by simp [num]))) (fits_i64.2 (h j (by simp [num])))
    · split
      · exact arith2D_defined c _ _
      · trivial
  · trivial

theorem lesseqCore_defined (e l : Bool) (as : List Term) : Res.defined (lesseqCore e l as) := by
  unfold lesseqCore
  split
  · split
    · trivial
    · split
      · trivial
      · split <;> trivial
      · trivial
  · trivial

theorem arith1_defined (c : Comp) {as : List Term} (h : ArgsFit as) : Res.defined (arith1 c as) := by
  unfold arith1
  split
  · rename_i i r
    cases c <;> simp only <;> first
      | trivial
      | exact dbl_defined _
      | (split
         · trivial
         · rename_i hi
           have := fits_i64.2 (h i (by simp [num]))
           rw [ck_eq (by rw [fits_iff] at *; unfold iMin at hi; omega)]
           trivial)
  · cases c <;> simp only <;> first
      | trivial
      | exact gint_defined _
      | (split <;> trivial)
  · cases c <;> simp only <;> trivial
  · trivial

/-- C31: computing with 64-bit integers never meets undefined behaviour, except `$substrat` of two
symbols without the third argument (which reads behind the record). -/
theorem C31_no_undefined_behaviour (arith : Bool) (f : Const) (as : List Term) (h : ArgsFit as) :
    computeRec arith (.app f as) = .ub ↔
      arith = true ∧ f = .sym "$substrat" ∧ ∃ a b, as = [a, b] ∧ (uriStr a).isSome ∧ (uriStr b).isSome := by
  have no : ∀ {r : Res}, Res.defined r → r = .ub → False := fun {r} hr e => by subst e; exact hr
  have sub : computable arith f = some .isSubstrat ↔ arith = true ∧ f = .sym "$substrat" := by
    constructor
    · intro h
      unfold computable at h
      split at h
      · split at h
        · cases h
        · split at h
          · cases h
          · rename_i hs ha
            split at h <;> first | (cases h; done) | (exact ⟨by simpa using ha, rfl⟩)
      · cases h
    · rintro ⟨rfl, rfl⟩; rfl
  constructor
  · intro e
    simp only [computeRec] at e
    split at e
    · cases e
    · rename_i c hc
      cases c <;> simp only [compute] at e <;> try (exfalso; first
        | exact no (arith2_defined _ h) e
        | exact no (arith1_defined _ h) e
        | exact no (lesseqCore_defined _ _ _) e
        | (unfold listFun at e; split at e <;> first | (cases e; done) | (split at e <;> cases e))
        | (unfold equalFun at e; split at e <;> first | (cases e; done) | (split at e <;> cases e)))
      · exfalso
        unfold strFun at e
        split at e
        · split at e
          · cases e
          · cases e
        · cases e
      · have := sub.1 hc
        refine ⟨this.1, this.2, ?_⟩
        unfold strFun at e
        split at e
        · split at e
          · rename_i ha hb
            simp only at e
            split at e
            · exact ⟨_, _, rfl, by simp [ha], by simp [hb]⟩
            · split at e <;> cases e
            · cases e
          · cases e
        · cases e
  · rintro ⟨rfl, rfl, a, b, rfl, ha, hb⟩
    obtain ⟨sa, ha⟩ := Option.isSome_iff_exists.1 ha
    obtain ⟨sb, hb⟩ := Option.isSome_iff_exists.1 hb
    show strFun .isSubstrat [a, b] = .ub
    simp [strFun, ha, hb]

example : ArgsFit [num 5, num (-3)] ∧
    computeRec true (.app (.sym "$product") [num 5, num (-3)]) = .val (num (-15)) := by
  refine ⟨fun i h => ?_, rfl⟩
  simp [num] at h
  rcases h with rfl | rfl <;> decide

example : I64 (2^62) ∧ computeRec true (.app (.sym "$sum") [num (2^62), num (2^62)]) = .keep ∧
    computeRec true (.app (.sym "$difference") [num (2^62), num (-(2^62) + 1)]) = .val (num (2^63 - 1)) := by
  refine ⟨by decide, ?_, ?_⟩
  · rw [C31_sum_exact_or_kept _ _ (by decide) (by decide)]; rfl
  · rw [C31_difference_exact_or_kept _ _ (by decide) (by decide)]; rfl

end Gkc.Props
