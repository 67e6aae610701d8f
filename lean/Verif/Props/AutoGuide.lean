import Verif.AutoGuide
import Verif.Props.Guide
/-
C74: the strategy that is made if none is given fits into its buffer, and its runs are all made.
-/
namespace Gkc.Props.Ag
open Gkc.Ag

/-- what holds for a table whatever the parameters are -/
def Fits (t : List Entry) (eq : Bool) : Prop :=
  ∀ qp1 qp2 qp3 sine : Bool, 43 ≤ countOf t (on qp1 qp2 qp3 sine eq) ∧ countOf t (on qp1 qp2 qp3 sine eq) ≤ 429 ∧
    charsOf t (on qp1 qp2 qp3 sine eq) 1 ≤ 46600 ∧ charsOf t (on qp1 qp2 qp3 sine eq) 50 ≤ 47400

instance (t : List Entry) (eq : Bool) : Decidable (Fits t eq) := by unfold Fits; infer_instance

theorem fits_plain : ∀ t ∈ [plain0, plain1, plain2, plain3, plain4], Fits t false := by decide +kernel
theorem fits_equal : ∀ t ∈ [equal0, equal1, equal2, equal3, equal4], Fits t true := by decide +kernel
theorem fits_unit : ∀ t ∈ [unitEq, unitEq ++ unitEqMore], Fits t true ∧ Fits t false := by decide +kernel

theorem fits (x : Stats) (h : x.clauses < 100000000) : Fits (table x) x.eq := by
  unfold table
  cases hu : x.ueq with
  | true =>
    rw [if_pos rfl]
    split
    · cases x.eq
      · exact (fits_unit _ (by simp)).2
      · exact (fits_unit _ (by simp)).1
    · cases x.eq
      · exact (fits_unit _ (by simp)).2
      · exact (fits_unit _ (by simp)).1
  | false =>
    rw [if_neg (by decide)]
    cases x.eq with
    | false =>
      rw [if_pos (by decide)]
      repeat' split
      all_goals first | omega | exact fits_plain _ (by simp)
    | true =>
      rw [if_neg (by decide)]
      repeat' split
      all_goals first | omega | exact fits_equal _ (by simp)

/-- C74: whatever the clauses are, if there are fewer than 100000000 of them, the text fits into the buffer; a print level is at most eleven characters -/
theorem C74_fits_partial (x : Stats) (h : x.clauses < 100000000) (level : Nat) (hl : level ≤ 11) : bytes x level ≤ room := by
  obtain ⟨-, -, h1, h50⟩ := fits x h x.qp1 x.qp2 x.qp3 x.sine
  unfold bytes room
  have : charsOf (table x) x.on x.start ≤ 47400 := by
    unfold Stats.start Stats.on
    split
    · exact h50
    · omega
  split <;> omega

/-- C74: there are 43 to 429 runs, so there is something to do and it is not taken for a sequence -/
theorem C74_runs_partial (x : Stats) (h : x.clauses < 100000000) : 43 ≤ runs x ∧ runs x ≤ 429 :=
  let f := fits x h x.qp1 x.qp2 x.qp3 x.sine
  ⟨f.1, f.2.1⟩

/-- C74: if no process finds a proof, each of the runs was made by one process; the runs that were written are read as `rs` -/
theorem C74_all_made_partial (x : Stats) (h : x.clauses < 100000000) (search : Nat → Nat → Gkc.Gd.Fields → Int)
    (before : List (String × Gkc.Gd.J)) (rs : List (List (String × Gkc.Gd.J))) (hb : Gd.NoRuns before) (hrs : rs.length = runs x)
    (d : Gkc.Gd.Fields) (m : Nat) (hm : 0 < m) (most : Nat) (hmost : rs.length < most)
    (hno : ∀ j < m, (Gkc.Gd.run search (Gd.strategy before rs []) d m j most).2 ≠ 0) (k : Nat) (hk : k < runs x) :
    ∃ j < m, k ∈ (Gkc.Gd.run search (Gd.strategy before rs []) d m j most).1.map (·.1) ∧
      ∀ j' < m, k ∈ (Gkc.Gd.run search (Gd.strategy before rs []) d m j' most).1.map (·.1) → j' = j := by
  have := C74_runs_partial x h
  exact Gd.C73_shared_out_partial search before [] rs hb (by simp [Gd.NoRuns]) (by omega) d m hm most hmost hno k (by omega)

/-- C74: the time for a run is not zero and grows: what is tried in a later iteration has at least five times as much as before, and in
    the five iterations never more than 62500, nearly two hours -/
theorem C74_longer (x : Stats) (it : Nat) (h : 1 ≤ it) :
    0 < dsecs x.start it ∧ dsecs x.start it * 5 ≤ dsecs x.start (it + 1) ∧ (it ≤ 5 → dsecs x.start it ≤ 62500) := by
  have h1 : 0 < x.start ∧ x.start ≤ 50 := by unfold Stats.start; split <;> omega
  have pos : ∀ n, 0 < dsecs x.start (n + 1) := by
    intro n
    induction n with
    | zero => exact h1.1
    | succ n ih =>
      cases n with
      | zero => simp only [dsecs]; omega
      | succ n => exact Nat.mul_pos ih (by decide)
  refine ⟨?_, ?_, fun h5 => ?_⟩
  · obtain ⟨n, rfl⟩ : ∃ n, it = n + 1 := ⟨it - 1, by omega⟩
    exact pos n
  · match it, h with
    | 1, _ => simp only [dsecs]; omega
    | n + 2, _ => exact Nat.le_refl _
  · obtain rfl | rfl | rfl | rfl | rfl : it = 1 ∨ it = 2 ∨ it = 3 ∨ it = 4 ∨ it = 5 := by omega
    all_goals simp only [dsecs]; omega

/-- C74, false: with 100000000 clauses or more, unless all are equations between terms alone, nothing is written -/
theorem C74_huge (x : Stats) (h : 100000000 ≤ x.clauses) (hu : x.ueq = false) : runs x = 0 := by
  have : table x = [] := by
    unfold table
    rw [hu, if_neg (by decide)]
    split
    · rw [if_neg (by omega), if_neg (by omega), if_neg (by omega), if_neg (by omega), if_neg (by omega)]
    · rw [if_neg (by omega), if_neg (by omega), if_neg (by omega), if_neg (by omega), if_neg (by omega)]
  rw [runs, this]
  rfl

theorem sum_filter_le (f : Nat → Nat) (q : Nat → Bool) : ∀ l : List Nat, ((l.filter q).map f).sum ≤ (l.map f).sum
  | [] => Nat.le_refl _
  | a :: l => by
    have := sum_filter_le f q l
    rw [List.filter_cons]
    split
    · simp only [List.map_cons, List.sum_cons]; omega
    · simp only [List.map_cons, List.sum_cons]; omega

/-- C74: with the special parameter for large theories the text fits as well, whatever the limits of the iterations are -/
theorem C74_special_fits (x : Stats) (h : x.clauses < 100000000) (lo hi : Int) : bytesSpecial x lo hi ≤ room := by
  have hf := C74_fits_partial x h 0 (by decide)
  have := sum_filter_le (fun it => ((written (table x) x.on it).map fun e => e.chars + digits (dsecs x.start it)).sum)
    (fun it => decide (lo ≤ (it : Int) - 1 ∧ (it : Int) - 1 ≤ hi)) [1, 2, 3, 4, 5]
  unfold bytes charsOf at hf
  unfold bytesSpecial between
  omega

/-- C74: with the limits that the database has, the special parameter gives as many runs as there are without it -/
theorem C74_special_runs (x : Stats) : runsSpecial x limits.1 limits.2 = runs x := rfl

/-- C74, false with other limits: nothing is made if the first is above the second -/
theorem C74_special_none (x : Stats) (lo hi : Int) (h : hi < lo) : runsSpecial x lo hi = 0 := by
  have : between lo hi = [] := by
    unfold between
    rw [List.filter_eq_nil_iff]
    intro it _ hc
    have := of_decide_eq_true hc
    omega
  rw [runsSpecial, this]
  rfl

/-- the largest of all: 998 clauses with equality, and all parameters on -/
def largest : Stats := ⟨998, 10, 100, 50, 10, 5, 2, 3, 7, 998⟩

example : runs largest = 429 ∧ bytes largest 2 = 46691 := by decide +kernel
example : bytes largest 2 ≤ room := C74_fits_partial largest (by decide) 2 (by decide)
example : dsecs largest.start 2 * 5 ≤ dsecs largest.start 3 := (C74_longer largest 2 (by decide)).2.1
example : bytesSpecial largest 0 1000 ≤ room := C74_special_fits largest (by decide) 0 1000
example : runsSpecial largest 1 1 ≠ 0 ∧ runsSpecial largest 0 1000 = 429 ∧ runsSpecial largest 2 1 = 0 := by decide +kernel
example : 43 ≤ runs largest := (C74_runs_partial largest (by decide)).1

/-- 200 clauses of which two thirds are goals -/
example : runs ⟨200, 10, 0, 0, 0, 160, 1, 160, 0, 200⟩ ≠ 10 := by
  have := C74_runs_partial ⟨200, 10, 0, 0, 0, 160, 1, 160, 0, 200⟩ (by decide)
  omega

example : runs ⟨100000000, 0, 0, 0, 1, 1, 1, 1, 1, 1⟩ = 0 := C74_huge _ (by decide) (by decide)

end Gkc.Props.Ag
