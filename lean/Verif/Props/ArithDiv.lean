import Verif.Props.Arith
import Mathlib.Algebra.Order.Field.Rat
import Mathlib.Tactic.Linarith
import Mathlib.Tactic.Positivity
import Mathlib.Tactic.Ring
import Mathlib.Tactic.FieldSimp
/-
C32: quotients and remainders of integers.
-/
namespace Gkc.Props
open Gkc.Arith Term

theorem roundEven_err (y : Rat) : y - 1 / 2 ≤ roundEven y ∧ (roundEven y : Rat) ≤ y + 1 / 2 := by
  have h1 : (y.floor : Rat) ≤ y := Rat.floor_le y
  have h2 : y < y.floor + 1 := by have := Rat.lt_floor_add_one y; push_cast at this; exact this
  unfold roundEven
  simp only
  split
  · constructor <;> linarith
  · split
    · push_cast; constructor <;> linarith
    · split
      · constructor <;> linarith
      · push_cast; constructor <;> linarith

theorem roundEven_int (n : Int) : roundEven n = n := by
  unfold roundEven
  simp only [Rat.floor_intCast]
  rw [if_pos]
  simp

theorem expo_le {x : Rat} (hx : 0 < x) : (2 : Rat) ^ (expo x + 52) ≤ x := by
  unfold expo
  simp only
  split
  · rename_i h; simpa using h
  · have hn : 0 < x.num := Rat.num_pos.2 hx
    have hd : x.den ≠ 0 := x.den_nz
    have h1 : 2 ^ (Nat.log2 x.num.toNat) ≤ x.num.toNat := Nat.log2_self_le (by omega)
    have h2 : x.den < 2 ^ (Nat.log2 x.den + 1) := Nat.lt_log2_self
    have e : x = x.num / x.den := (Rat.num_div_den x).symm
    have h1' : (2 : Rat) ^ (Nat.log2 x.num.toNat) ≤ x.num := by
      have : ((2 ^ (Nat.log2 x.num.toNat) : Nat) : Int) ≤ x.num := by omega
      exact_mod_cast this
    have h2' : (x.den : Rat) ≤ 2 ^ (Nat.log2 x.den + 1) := by exact_mod_cast h2.le
    have hd' : (0 : Rat) < x.den := by exact_mod_cast Nat.pos_of_ne_zero hd
    have : (Nat.log2 x.num.toNat : Int) - Nat.log2 x.den - 53 + 52 = (Nat.log2 x.num.toNat : Int) - ((Nat.log2 x.den + 1 : Nat) : Int) := by
      push_cast; ring
    rw [this, zpow_sub₀ (by norm_num)]
    simp only [zpow_natCast]
    conv => rhs; rw [e]
    rw [div_le_div_iff₀ (by positivity) hd']
    calc (2 : Rat) ^ (Nat.log2 x.num.toNat) * x.den ≤ x.num * x.den := by
          exact mul_le_mul_of_nonneg_right h1' hd'.le
      _ ≤ x.num * 2 ^ (Nat.log2 x.den + 1) := by
          exact mul_le_mul_of_nonneg_left h2' (by exact_mod_cast hn.le)

theorem tiny : (2 : Rat) ^ (-1074 : Int) / 2 ≤ 1 / 2 ^ 54 := by decide +kernel
theorem huge : (2 : Rat) ^ 53 + 1 < (2 : Rat) ^ (1024 : Int) := by decide +kernel

theorem rndPos_err {x : Rat} (hx : 0 < x) : ∃ d : Rat, (d ≤ x / 2 ^ 53 ∨ d ≤ 1 / 2 ^ 54) ∧ x - d ≤ rndPos x ∧ rndPos x ≤ x + d := by
  have h0 := expo_le hx
  unfold rndPos
  simp only
  generalize he : max (expo x) (-1074) = e
  have hp : (0 : Rat) < 2 ^ e := zpow_pos (by norm_num) e
  obtain ⟨h1, h2⟩ := roundEven_err (x / 2 ^ e)
  refine ⟨2 ^ e / 2, ?_, ?_, ?_⟩
  · rcases le_total (expo x) (-1074) with h | h
    · right
      rw [max_eq_right h] at he
      subst he
      exact tiny
    · left
      rw [max_eq_left h] at he
      subst he
      rw [zpow_add₀ (by norm_num)] at h0
      have : ((2 : Rat) ^ (52 : Int)) = 2 ^ 52 := by norm_num
      rw [this] at h0
      rw [div_le_div_iff₀ (by norm_num) (by norm_num)]
      norm_num at h0 ⊢
      linarith
  · have := mul_le_mul_of_nonneg_right h1 hp.le
    rw [sub_mul, div_mul_cancel₀ _ hp.ne'] at this
    linarith
  · have := mul_le_mul_of_nonneg_right h2 hp.le
    rw [add_mul, div_mul_cancel₀ _ hp.ne'] at this
    linarith

/-- integers up to 2^53 are doubles -/
theorem rndPos_nat {n : Nat} (h0 : 0 < n) (h : n ≤ 2 ^ 53) : rndPos (n : Rat) = n := by
  have key : ∃ m : Int, (n : Rat) / 2 ^ (max (expo n) (-1074)) = m := by
    have hl : 2 ^ Nat.log2 n ≤ n := Nat.log2_self_le (by omega)
    have he : expo (n : Rat) = (Nat.log2 n : Int) - 52 := by
      unfold expo
      have : ((n : Rat).den.log2 : Int) = 0 := by simp; decide
      simp only [this, Rat.num_natCast, Int.toNat_natCast, sub_zero, zpow_natCast]
      rw [if_pos]
      exact_mod_cast hl
    rw [he, max_eq_left (by omega)]
    have hlog : Nat.log2 n ≤ 53 := by
      by_contra hc
      have : 2 ^ 54 ≤ 2 ^ Nat.log2 n := Nat.pow_le_pow_right (by norm_num) (by omega)
      omega
    by_cases h53 : Nat.log2 n = 53
    · refine ⟨2 ^ 52, ?_⟩
      rw [h53] at hl ⊢
      have : n = 2 ^ 53 := by omega
      rw [this]
      norm_num
    · refine ⟨n * 2 ^ (52 - Nat.log2 n), ?_⟩
      have : (Nat.log2 n : Int) - 52 = - ((52 - Nat.log2 n : Nat) : Int) := by omega
      rw [this, zpow_neg, zpow_natCast]
      push_cast
      field_simp
  obtain ⟨m, hm⟩ := key
  unfold rndPos
  simp only
  rw [hm, roundEven_int, ← hm, div_mul_cancel₀]
  exact (zpow_pos (by norm_num) _).ne'

theorem rnd_neg (x : Rat) : rnd (-x) = match rnd x with
    | .fin q => .fin (-q)
    | .inf b => .inf (!b) := by
  unfold rnd
  rcases lt_trichotomy x 0 with h | h | h
  · simp only [neg_eq_zero, h.ne, if_false, if_pos (show (0:Rat) < -x by linarith), if_neg (show ¬ (0:Rat) < x by linarith)]
    split <;> simp
  · subst h; simp
  · simp only [neg_eq_zero, h.ne', if_false, if_neg (show ¬ (0:Rat) < -x by linarith), if_pos h, neg_neg]
    split <;> simp

theorem rnd_int {n : Int} (h : n.natAbs ≤ 2 ^ 53) : rnd (n : Rat) = .fin n := by
  have pos : ∀ m : Nat, m ≤ 2 ^ 53 → rnd (m : Rat) = .fin m := by
    intro m hm
    unfold rnd
    by_cases h0 : m = 0
    · subst h0; simp
    · have hp : (0 : Rat) < m := by exact_mod_cast Nat.pos_of_ne_zero h0
      rw [if_neg hp.ne', if_pos hp, rndPos_nat (Nat.pos_of_ne_zero h0) hm, if_pos]
      have : (m : Rat) ≤ 2 ^ 53 := by exact_mod_cast hm
      exact lt_trans (lt_of_le_of_lt this (lt_add_one _)) huge
  generalize hk : n.natAbs = k at h
  have hp := pos k h
  rcases Int.natAbs_eq n with e | e
  · rw [e, hk]; exact_mod_cast hp
  · rw [e, hk]
    push_cast
    rw [rnd_neg, hp]

/-- rounding of a quotient of small integers stays between the same integers -/
theorem rnd_quot_pos {a b : Nat} (ha : 0 < a) (ha' : a < 2 ^ 53) (hb : 0 < b) (hb' : b ≤ 2 ^ 53) :
    ∃ y, rnd ((a : Rat) / b) = .fin y ∧ y.floor = ((a : Rat) / b).floor ∧ y.ceil = ((a : Rat) / b).ceil ∧ 0 ≤ y := by
  have hbr : (0 : Rat) < b := by exact_mod_cast hb
  have har : (0 : Rat) < a := by exact_mod_cast ha
  have hxp : (0 : Rat) < (a : Rat) / b := div_pos har hbr
  by_cases hi : b ∣ a
  · obtain ⟨m, rfl⟩ := hi
    have e : ((b * m : Nat) : Rat) / b = m := by push_cast; field_simp
    have hm : m ≤ 2 ^ 53 := by
      have : m ≤ b * m := Nat.le_mul_of_pos_left m hb
      omega
    rw [e]
    refine ⟨m, ?_, rfl, rfl, by positivity⟩
    have := rnd_int (n := m) (by simpa using hm)
    exact_mod_cast this
  · generalize hx : (a : Rat) / b = x at *
    have hxb : x * b = a := by rw [← hx]; field_simp
    obtain ⟨d, hd, l1, l2⟩ := rndPos_err hxp
    have hd' : d * b < 1 := by
      rcases hd with hd | hd
      · have h1 : d * b ≤ x / 2 ^ 53 * b := mul_le_mul_of_nonneg_right hd hbr.le
        have h2 : x / 2 ^ 53 * b = a / 2 ^ 53 := by rw [← hxb]; ring
        have h3 : (a : Rat) < 2 ^ 53 := by exact_mod_cast ha'
        have h4 : (a : Rat) / 2 ^ 53 < 1 := by rw [div_lt_one (by norm_num)]; exact h3
        linarith
      · have h1 : d * b ≤ 1 / 2 ^ 54 * b := mul_le_mul_of_nonneg_right hd hbr.le
        have h3 : (b : Rat) ≤ 2 ^ 53 := by exact_mod_cast hb'
        linarith
    -- the integers around
    let m := a / b
    have hm1 : b * m + 1 ≤ a := by
      have h1 : b * (a / b) ≤ a := Nat.mul_div_le a b
      have h2 : b * (a / b) ≠ a := fun e => hi ⟨_, e.symm⟩
      show b * (a / b) + 1 ≤ a
      omega
    have hm2 : a + 1 ≤ b * m + b := by
      have := Nat.lt_mul_div_succ a hb
      show a + 1 ≤ b * (a / b) + b
      rw [Nat.mul_add, Nat.mul_one] at this
      exact this
    have hm1r : (b : Rat) * m + 1 ≤ a := by exact_mod_cast hm1
    have hm2r : (a : Rat) + 1 ≤ b * m + b := by exact_mod_cast hm2
    have ly : (m : Rat) < rndPos x := by
      by_contra hc
      have : rndPos x * b ≤ m * b := mul_le_mul_of_nonneg_right (not_lt.1 hc) hbr.le
      have : (x - d) * b ≤ rndPos x * b := mul_le_mul_of_nonneg_right l1 hbr.le
      nlinarith
    have uy : rndPos x < m + 1 := by
      by_contra hc
      have : (m + 1 : Rat) * b ≤ rndPos x * b := mul_le_mul_of_nonneg_right (not_lt.1 hc) hbr.le
      have : rndPos x * b ≤ (x + d) * b := mul_le_mul_of_nonneg_right l2 hbr.le
      nlinarith
    have lx : (m : Rat) < x := by
      by_contra hc
      have : x * b ≤ m * b := mul_le_mul_of_nonneg_right (not_lt.1 hc) hbr.le
      nlinarith
    have ux : x < m + 1 := by
      by_contra hc
      have : (m + 1 : Rat) * b ≤ x * b := mul_le_mul_of_nonneg_right (not_lt.1 hc) hbr.le
      nlinarith
    have fl : ∀ y : Rat, (m : Rat) < y → y < m + 1 → y.floor = m ∧ y.ceil = m + 1 := by
      intro y h1 h2
      constructor
      · apply le_antisymm
        · have : y.floor < (m : Int) + 1 := by rw [Rat.floor_lt_iff]; exact_mod_cast h2
          omega
        · rw [Rat.le_floor_iff]; exact_mod_cast h1.le
      · apply le_antisymm
        · rw [Rat.ceil_le_iff]; exact_mod_cast h2.le
        · have : (m : Int) < y.ceil := by rw [Rat.lt_ceil_iff]; exact_mod_cast h1
          omega
    have hmr : (m : Rat) < 2 ^ 53 := by
      have : m ≤ a := Nat.div_le_self a b
      have : m < 2 ^ 53 := by omega
      exact_mod_cast this
    refine ⟨rndPos x, ?_, ?_, ?_, ?_⟩
    · unfold rnd
      rw [if_neg hxp.ne', if_pos hxp, if_pos]
      refine lt_trans uy ?_
      refine lt_trans (by linarith) huge
    · rw [(fl _ ly uy).1, (fl _ lx ux).1]
    · rw [(fl _ ly uy).2, (fl _ lx ux).2]
    · exact le_trans (by positivity) ly.le

theorem floor_neg (x : Rat) : (-x).floor = -x.ceil := by
  apply le_antisymm
  · have : x.ceil ≤ -(-x).floor := by
      rw [Rat.ceil_le_iff]
      have := Rat.floor_le (-x)
      push_cast
      linarith
    omega
  · rw [Rat.le_floor_iff]
    have := Rat.le_ceil (x := x)
    push_cast
    linarith

theorem ceil_neg (x : Rat) : (-x).ceil = -x.floor := by
  have := floor_neg (-x)
  rw [neg_neg] at this
  omega

theorem trunc_nonneg {y : Rat} (h : 0 ≤ y) : trunc y = y.floor := by
  unfold trunc; rw [if_neg (by linarith)]

theorem trunc_neg {y : Rat} (h : 0 ≤ y) : trunc (-y) = -y.floor := by
  unfold trunc
  split
  · exact ceil_neg y
  · have : y = 0 := by linarith
    subst this
    decide +kernel

theorem quot_sign (a b : Int) : ((a : Rat) / b = (a.natAbs : Rat) / b.natAbs ∧ a.tdiv b = (a.natAbs / b.natAbs : Nat)) ∨
    ((a : Rat) / b = -((a.natAbs : Rat) / b.natAbs) ∧ a.tdiv b = -((a.natAbs / b.natAbs : Nat) : Int)) := by
  obtain ⟨m, rfl | rfl⟩ := a.eq_nat_or_neg <;> obtain ⟨n, rfl | rfl⟩ := b.eq_nat_or_neg
  · left; simp
  · right; simp [div_neg]
  · right; simp [neg_div]
  · left; simp

/-- likewise with signs -/
theorem rnd_quot {a b : Int} (ha : a.natAbs < 2 ^ 53) (hb : b ≠ 0) (hb' : b.natAbs ≤ 2 ^ 53) :
    ∃ y, rnd ((a : Rat) / b) = .fin y ∧ y.floor = ((a : Rat) / b).floor ∧ y.ceil = ((a : Rat) / b).ceil ∧
      trunc y = trunc ((a : Rat) / b) := by
  by_cases h0 : a = 0
  · subst h0
    refine ⟨0, ?_, ?_, ?_, ?_⟩
    · simp [rnd]
    all_goals simp
  -- the positive quotient
  obtain ⟨y, h1, h2, h3, h4⟩ := rnd_quot_pos (a := a.natAbs) (b := b.natAbs) (by omega) ha (by omega) hb'
  have hx : (0 : Rat) ≤ (a.natAbs : Rat) / b.natAbs := by positivity
  rcases quot_sign a b with ⟨e, -⟩ | ⟨e, -⟩
  · rw [e]
    exact ⟨y, h1, h2, h3, by rw [trunc_nonneg h4, trunc_nonneg hx, h2]⟩
  · rw [e]
    refine ⟨-y, by rw [rnd_neg, h1], ?_, ?_, ?_⟩
    · rw [floor_neg, floor_neg, h3]
    · rw [ceil_neg, ceil_neg, h2]
    · rw [trunc_neg h4, trunc_neg hx, h2]

theorem floor_quot_pos (a : Int) {b : Int} (hb : 0 < b) : ((a : Rat) / b).floor = a / b := by
  have hbr : (0 : Rat) < b := by exact_mod_cast hb
  apply le_antisymm
  · rw [Int.le_ediv_iff_mul_le hb]
    have := Rat.floor_le ((a : Rat) / b)
    rw [le_div_iff₀ hbr] at this
    exact_mod_cast this
  · rw [Rat.le_floor_iff, le_div_iff₀ hbr]
    have : a / b * b ≤ a := Int.ediv_mul_le a hb.ne'
    exact_mod_cast this

theorem floor_quot (a : Int) {b : Int} (hb : b ≠ 0) : ((a : Rat) / b).floor = a.fdiv b := by
  rcases lt_or_gt_of_ne hb with h | h
  · have e : (a : Rat) / b = ((-a : Int) : Rat) / ((-b : Int) : Rat) := by push_cast; rw [neg_div_neg_eq]
    rw [e, floor_quot_pos _ (by omega), ← Int.neg_fdiv_neg, Int.fdiv_eq_ediv_of_nonneg _ (by omega)]
  · rw [floor_quot_pos _ h, Int.fdiv_eq_ediv_of_nonneg _ h.le]

theorem ceil_quot (a : Int) {b : Int} (hb : b ≠ 0) : ((a : Rat) / b).ceil = -(-a).fdiv b := by
  rw [← floor_quot _ hb]
  push_cast
  rw [neg_div, floor_neg, neg_neg]

theorem trunc_quot (a : Int) {b : Int} (hb : b ≠ 0) : trunc ((a : Rat) / b) = a.tdiv b := by
  have hx : (0 : Rat) ≤ (a.natAbs : Rat) / b.natAbs := by positivity
  have hf : ((a.natAbs : Rat) / b.natAbs).floor = (a.natAbs / b.natAbs : Nat) := by
    have := floor_quot_pos (a.natAbs : Int) (b := (b.natAbs : Int)) (by omega)
    simp only [Int.cast_natCast] at this
    rw [this]
    norm_cast
  rcases quot_sign a b with ⟨e, e'⟩ | ⟨e, e'⟩
  · rw [e, e', trunc_nonneg hx, hf]
  · rw [e, e', trunc_neg hx, hf]

theorem trunc_int (n : Int) : trunc (n : Rat) = n := by
  unfold trunc
  split
  · exact Rat.ceil_intCast n
  · exact Rat.floor_intCast n

theorem gint_int {n : Int} (h : Fits n) : Res.gint (some (.fin n)) = .int n := by
  rw [fits_iff] at h
  have : toGint (.fin n) = some n := by
    unfold toGint
    simp only
    rw [if_pos, trunc_int]
    exact ⟨by exact_mod_cast h.1, by exact_mod_cast h.2⟩
  simp only [Res.gint, this]

theorem gint_quot (f : Rat → Int) {a b : Int} (ha : a.natAbs < 2 ^ 53) (hb : b ≠ 0) (hb' : b.natAbs ≤ 2 ^ 53)
    (hf : ∀ y, y.floor = ((a : Rat) / b).floor → y.ceil = ((a : Rat) / b).ceil → trunc y = trunc ((a : Rat) / b) → f y = f ((a : Rat) / b))
    (hF : Fits (f ((a : Rat) / b))) :
    Res.gint ((divD (rnd a) (rnd b)).map (mapD f)) = .int (f ((a : Rat) / b)) := by
  rw [rnd_int (by omega), rnd_int hb']
  obtain ⟨y, h1, h2, h3, h4⟩ := rnd_quot ha hb hb'
  simp only [divD, Option.map_some, h1, mapD, hf y h2 h3 h4]
  exact gint_int hF

/-! ### The laws -/

/-- truncating division: the remainder has the sign of the dividend -/
def IsT (a b q r : Int) : Prop := a = b * q + r ∧ r.natAbs < b.natAbs ∧ (r = 0 ∨ (0 < r ↔ 0 < a))
/-- flooring division: the remainder has the sign of the divisor -/
def IsF (a b q r : Int) : Prop := a = b * q + r ∧ r.natAbs < b.natAbs ∧ (r = 0 ∨ (0 < r ↔ 0 < b))
/-- Euclidean division: the remainder is not negative -/
def IsE (a b q r : Int) : Prop := a = b * q + r ∧ r.natAbs < b.natAbs ∧ 0 ≤ r

theorem isT_div (a : Int) {b : Int} (hb : b ≠ 0) : IsT a b (a.tdiv b) (a.tmod b) := by
  refine ⟨(Int.mul_tdiv_add_tmod a b).symm, ?_, ?_⟩
  · rw [Int.natAbs_tmod]
    exact Nat.mod_lt _ (by omega)
  · rcases Int.le_total 0 a with h | h
    · have := Int.tmod_nonneg b h
      have := Int.mul_tdiv_add_tmod a b
      by_cases h0 : a = 0
      · subst h0; left; simp
      · omega
    · have : 0 ≤ (-a).tmod b := Int.tmod_nonneg b (by omega)
      rw [Int.neg_tmod] at this
      omega

theorem isF_div (a : Int) {b : Int} (hb : b ≠ 0) : IsF a b (a.fdiv b) (a.fmod b) := by
  have pos : ∀ (a b : Int), 0 < b → 0 ≤ a.fmod b ∧ a.fmod b < b := fun a b h => ⟨Int.fmod_nonneg_of_pos a h, Int.fmod_lt_of_pos a h⟩
  refine ⟨(Int.mul_fdiv_add_fmod a b).symm, ?_⟩
  rcases lt_or_gt_of_ne hb with h | h
  · obtain ⟨h1, h2⟩ := pos (-a) (-b) (by omega)
    rw [Int.neg_fmod_neg] at h1 h2
    omega
  · obtain ⟨h1, h2⟩ := pos a b h
    omega

theorem fdiv_fits {a b : Int} (ha : a.natAbs < 2 ^ 53) : Fits (a.fdiv b) := by
  have h := Int.natAbs_ediv_le_natAbs a b
  rw [fits_iff, Int.fdiv_eq_ediv]
  split <;> omega

theorem remC_eq {a b : Int} (ha : Fits a) (hb : b ≠ 0) : remC a b = .int (a.tmod b) := by
  unfold remC
  split
  · rename_i h
    obtain ⟨-, rfl⟩ := h
    simp
  · rename_i h
    unfold cmod
    rw [if_neg hb, ck_eq (tdiv_fits ha hb h)]
    rfl

/-- C32: a zero divisor is refused by all the functions. -/
theorem C32_zero_divisor_kept (f : String) (a : Int)
    (hf : f ∈ ["$quotient", "/", "$quotient_e", "$quotient_t", "$quotient_f", "$remainder", "$remainder_e", "$remainder_t", "$remainder_f"]) :
    computeRec true (.app (.sym f) [num a, num 0]) = .keep := by
  simp only [List.mem_cons, List.not_mem_nil, or_false] at hf
  rcases hf with rfl | rfl | rfl | rfl | rfl | rfl | rfl | rfl | rfl <;> rfl

/-- C32: `$quotient` of integers and `$remainder_t` obey the truncating law, for all 64-bit integers
but the least by -1, whose quotient does not fit and is refused. -/
theorem C32_quotient_truncates (a b : Int) (ha : I64 a) (hb : b ≠ 0) (h : ¬ (a = -2 ^ 63 ∧ b = -1)) :
    ∃ q r, computeRec true (.app (.sym "$quotient") [num a, num b]) = .val (num q) ∧
      computeRec true (.app (.sym "$remainder_t") [num a, num b]) = .val (num r) ∧ IsT a b q r := by
  have ha' := fits_i64.2 ha
  have hm : iMin = -2 ^ 63 := rfl
  refine ⟨a.tdiv b, a.tmod b, ?_, ?_, isT_div a hb⟩
  · show (if b = 0 then Res.keep else if a = iMin ∧ b = -1 then Res.keep else Res.chk ((cdiv a b).map some)) = _
    rw [if_neg hb, if_neg (by rwa [hm]), cdiv, if_neg hb, ck_eq (tdiv_fits ha' hb (by rwa [hm]))]
    rfl
  · show (if b = 0 then Res.keep else remC a b) = _
    rw [if_neg hb, remC_eq ha' hb]
    rfl

theorem C32_quotient_least_kept : computeRec true (.app (.sym "$quotient") [num (-2 ^ 63), num (-1)]) = .keep ∧
    computeRec true (.app (.sym "$remainder_t") [num (-2 ^ 63), num (-1)]) = .val (num 0) := by
  constructor <;> rfl

/-- C32: all the remainders are the truncating one -/
theorem C32_remainders_truncate (f : String) (hf : f ∈ ["$remainder", "$remainder_e", "$remainder_t", "$remainder_f"])
    (a b : Int) (ha : I64 a) (hb : b ≠ 0) :
    ∃ q r, computeRec true (.app (.sym f) [num a, num b]) = .val (num r) ∧ IsT a b q r := by
  refine ⟨a.tdiv b, a.tmod b, ?_, isT_div a hb⟩
  have e : (if b = 0 then Res.keep else remC a b) = .val (num (a.tmod b)) := by
    rw [if_neg hb, remC_eq (fits_i64.2 ha) hb]
    rfl
  simp only [List.mem_cons, List.not_mem_nil, or_false] at hf
  rcases hf with rfl | rfl | rfl | rfl <;> exact e

/-- C32: `$quotient_t` with `$remainder_t`, for dividends below 2^53 and divisors up to it.  Missing:
greater integers, for which the claim is false (`C32_quotient_t_above_2_53`). -/
theorem C32_quotient_t_partial (a b : Int) (ha : a.natAbs < 2 ^ 53) (hb : b ≠ 0) (hb' : b.natAbs ≤ 2 ^ 53) :
    ∃ q r, computeRec true (.app (.sym "$quotient_t") [num a, num b]) = .val (num q) ∧
      computeRec true (.app (.sym "$remainder_t") [num a, num b]) = .val (num r) ∧ IsT a b q r := by
  have hF : Fits a := by rw [fits_iff]; omega
  refine ⟨a.tdiv b, a.tmod b, ?_, ?_, isT_div a hb⟩
  · show (if b = 0 then Res.keep else Res.gint ((divD (rnd a) (rnd b)).map (mapD trunc))) = _
    have hfit : Fits (trunc ((a : Rat) / b)) := by
      rw [trunc_quot a hb]
      have h := Nat.div_le_self a.natAbs b.natAbs
      have h' : (a.tdiv b).natAbs = a.natAbs / b.natAbs := Int.natAbs_tdiv a b
      rw [← h'] at h
      rw [fits_iff]
      omega
    rw [if_neg hb, gint_quot trunc ha hb hb' (fun y _ _ h => h) hfit, trunc_quot a hb]
    rfl
  · show (if b = 0 then Res.keep else remC a b) = _
    rw [if_neg hb, remC_eq hF hb]
    rfl

/-- C32: `$quotient_f` is the flooring quotient, for dividends below 2^53 and divisors up to it.
Missing: greater integers, and the remainder (`C32_remainder_f_wrong`). -/
theorem C32_quotient_f_partial (a b : Int) (ha : a.natAbs < 2 ^ 53) (hb : b ≠ 0) (hb' : b.natAbs ≤ 2 ^ 53) :
    ∃ q r, computeRec true (.app (.sym "$quotient_f") [num a, num b]) = .val (num q) ∧ IsF a b q r := by
  refine ⟨a.fdiv b, a.fmod b, ?_, isF_div a hb⟩
  show (if b = 0 then Res.keep else Res.gint ((divD (rnd a) (rnd b)).map (mapD Rat.floor))) = _
  rw [if_neg hb, gint_quot Rat.floor ha hb hb' (fun y h _ _ => h) (by rw [floor_quot a hb]; exact fdiv_fits ha), floor_quot a hb]
  rfl

/-- C32: `$quotient_e` is the Euclidean quotient just when the division has no remainder, for dividends
below 2^53 and divisors up to it. -/
theorem C32_quotient_e_only_exact (a b : Int) (ha : a.natAbs < 2 ^ 53) (hb : b ≠ 0) (hb' : b.natAbs ≤ 2 ^ 53) :
    ∃ q, computeRec true (.app (.sym "$quotient_e") [num a, num b]) = .val (num q) ∧ ((∃ r, IsE a b q r) ↔ b ∣ a) := by
  have hcomp : computeRec true (.app (.sym "$quotient_e") [num a, num b]) =
      (if b = 0 then Res.keep
       else if b < 0 then Res.gint ((divD (rnd a) (rnd b)).map (mapD Rat.floor))
       else Res.gint ((divD (rnd a) (rnd b)).map (mapD Rat.ceil))) := rfl
  rw [hcomp, if_neg hb]
  by_cases h : b < 0
  · rw [if_pos h, gint_quot Rat.floor ha hb hb' (fun y h _ _ => h) (by rw [floor_quot a hb]; exact fdiv_fits ha), floor_quot a hb]
    refine ⟨a.fdiv b, rfl, ?_⟩
    obtain ⟨h1, h2, h3⟩ := isF_div a hb
    constructor
    · rintro ⟨r, e1, e2, e3⟩
      have : a.fmod b = 0 := by omega
      exact ⟨a.fdiv b, by omega⟩
    · intro hd
      have : a.fmod b = 0 := Int.fmod_eq_zero_of_dvd hd
      exact ⟨0, by omega, by simpa using hb, le_refl _⟩
  · have hfit : Fits (-(-a).fdiv b) := by
      have h := Int.natAbs_ediv_le_natAbs (-a) b
      rw [fits_iff, Int.fdiv_eq_ediv]
      split <;> omega
    rw [if_neg h, gint_quot Rat.ceil ha hb hb' (fun y _ h _ => h) (by rw [ceil_quot a hb]; exact hfit), ceil_quot a hb]
    refine ⟨-(-a).fdiv b, rfl, ?_⟩
    obtain ⟨h1, h2, h3⟩ := isF_div (-a) hb
    constructor
    · rintro ⟨r, e1, e2, e3⟩
      rw [mul_neg] at e1
      have : (-a).fmod b = 0 := by omega
      exact ⟨-(-a).fdiv b, by rw [mul_neg]; omega⟩
    · intro hd
      have : (-a).fmod b = 0 := Int.fmod_eq_zero_of_dvd ((Int.dvd_neg).2 hd)
      exact ⟨0, by rw [mul_neg]; omega, by simpa using hb, le_refl _⟩

/-- C32 is false: the least case for `$quotient_e` and `$remainder_e` -/
theorem C32_euclidean_wrong : computeRec true (.app (.sym "$quotient_e") [num 1, num 2]) = .val (num 1) ∧
    computeRec true (.app (.sym "$remainder_e") [num 1, num 2]) = .val (num 1) ∧ ¬ IsE 1 2 1 1 ∧ IsE 1 2 0 1 ∧
    computeRec true (.app (.sym "$remainder_e") [num (-1), num 2]) = .val (num (-1)) := by
  refine ⟨?_, rfl, ?_, ?_, rfl⟩
  · decide +kernel
  · rintro ⟨h, -⟩; omega
  · exact ⟨by omega, by decide, by decide⟩

/-- C32 is false for `$quotient_f` and `$remainder_f` -/
theorem C32_remainder_f_wrong : computeRec true (.app (.sym "$quotient_f") [num (-1), num 2]) = .val (num (-1)) ∧
    computeRec true (.app (.sym "$remainder_f") [num (-1), num 2]) = .val (num (-1)) ∧ ¬ IsF (-1) 2 (-1) (-1) ∧ IsF (-1) 2 (-1) 1 := by
  refine ⟨by decide +kernel, rfl, ?_, ?_⟩
  · rintro ⟨h, -⟩; omega
  · exact ⟨by omega, by decide, by decide⟩

/-- C32 is false for `$quotient_t` and `$quotient_f` above 2^53 -/
theorem C32_quotient_t_above_2_53 : computeRec true (.app (.sym "$quotient_t") [num (2 ^ 53 + 1), num 1]) = .val (num (2 ^ 53)) ∧
    computeRec true (.app (.sym "$quotient_f") [num (2 ^ 53 + 1), num 1]) = .val (num (2 ^ 53)) ∧
    ¬ ∃ r, IsT (2 ^ 53 + 1) 1 (2 ^ 53) r := by
  refine ⟨by decide +kernel, by decide +kernel, ?_⟩
  rintro ⟨r, h, h', -⟩
  have : r.natAbs < 1 := h'
  omega

example : ∃ a b : Int, a.natAbs < 2 ^ 53 ∧ b ≠ 0 ∧ b.natAbs ≤ 2 ^ 53 ∧ ¬ b ∣ a ∧ a < 0 ∧ b < 0 :=
  ⟨-7, -2, by decide, by decide, by decide, by decide, by decide, by decide⟩
example : I64 (-2 ^ 63) ∧ (3 : Int) ≠ 0 ∧ ¬ ((-2 ^ 63 : Int) = -2 ^ 63 ∧ (3 : Int) = -1) := by decide

end Gkc.Props
