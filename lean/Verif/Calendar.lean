/-
Date and time-of-day arithmetic: Db/dbdata.c lines 1855-1895 and 3497-3543.

C `unsigned` values are integers in [0,2^32) and every unsigned operation is followed by
`u32`; `long` is 64 bits (no overflow is reachable from `int` arguments) and is an `Int`;
`int` results are truncated with `i32`.
-/
namespace Gkc.Calendar

/-- conversion to `unsigned` (32 bits) -/
def u32 (x : Int) : Int := x % 4294967296
/-- conversion to `int` (32 bits, two's complement) -/
def i32 (x : Int) : Int := (x + 2147483648) % 4294967296 - 2147483648

/-- `isleap`, Db/dbdata.c:3504-3506 -/
def isleap (yr : Int) : Bool := yr % 400 == 0 || (yr % 4 == 0 && yr % 100 != 0)

/-- `months_to_days`, Db/dbdata.c:3508-3510 (unsigned arithmetic) -/
def monthsToDays (month : Int) : Int := u32 (month * 3057 - 3007) / 100

/-- `years_to_days`, Db/dbdata.c:3512-3514 (`long` arithmetic) -/
def yearsToDays (yr : Int) : Int := yr * 365 + yr / 4 - yr / 100 + yr / 400

/-- `ymd_to_scalar`, Db/dbdata.c:3516-3524 -/
def ymdToScalar (yr mo day : Int) : Int :=
  let scalar := u32 (day + monthsToDays mo)
  let scalar := if mo > 2 then scalar - (if isleap yr then 1 else 2) else scalar
  scalar + yearsToDays (u32 (yr - 1))

/-- the loop `for (n=...; years_to_days(n) < scalar;) n++;`, Db/dbdata.c:3529.
Simplification: `n` does not wrap (it stays far below 2^32 for every `int` scalar). -/
def yearLoop (scalar n : Int) : Int :=
  if h : yearsToDays n < scalar ∧ 0 ≤ n then yearLoop scalar (n + 1) else n
termination_by (scalar - yearsToDays n).toNat
decreasing_by
  obtain ⟨h1, _⟩ := h
  have : yearsToDays n < yearsToDays (n + 1) := by unfold yearsToDays; omega
  omega

/-- result of `scalar_to_ymd` -/
structure Ymd where
  yr : Int
  mo : Int
  day : Int
  deriving DecidableEq, Repr

/-- `scalar_to_ymd`, Db/dbdata.c:3526-3540 -/
def scalarToYmd (scalar : Int) : Ymd :=
  let yr := yearLoop scalar (u32 ((scalar * 400).tdiv 146097))
  let n := u32 (scalar - yearsToDays (u32 (yr - 1)))
  let n := if n > 59 then
      let n := u32 (n + 2)
      if isleap yr then u32 (n - (if n > 62 then 1 else 2)) else n
    else n
  let mo := u32 (n * 100 + 3007) / 3057
  { yr := yr, mo := mo, day := u32 (n - monthsToDays mo) }

/-- `wg_ymd_to_date`, Db/dbdata.c:1860-1863; -1 is the error answer -/
def ymdToDate (yr mo day : Int) : Int :=
  if yr < 0 ∨ mo < 1 ∨ mo > 12 ∨ day < 1 ∨ day > 31 then -1
  else i32 (ymdToScalar yr mo day)

/-- `wg_date_to_ymd`, Db/dbdata.c:1873-1880 -/
def dateToYmd (date : Int) : Ymd :=
  let r := scalarToYmd date
  { yr := i32 r.yr, mo := i32 r.mo, day := i32 r.day }

/-- `wg_hms_to_time`, Db/dbdata.c:1866-1870 -/
def hmsToTime (hr min sec prt : Int) : Int :=
  if hr < 0 ∨ hr > 24 ∨ min < 0 ∨ min > 60 ∨ sec < 0 ∨ sec > 60 ∨ prt < 0 ∨ prt > 99 then -1
  else hr * (60*60*100) + min * (60*100) + sec * 100 + prt

/-- result of `wg_time_to_hms` -/
structure Hms where
  hr : Int
  min : Int
  sec : Int
  prt : Int
  deriving DecidableEq, Repr

/-- `wg_time_to_hms`, Db/dbdata.c:1883-1893 (C division truncates) -/
def timeToHms (time : Int) : Hms :=
  let hr := time.tdiv (60*60*100)
  let t := time - hr * (60*60*100)
  let min := t.tdiv (60*100)
  let t := t - min * (60*100)
  let sec := t.tdiv 100
  let t := t - sec * 100
  { hr := hr, min := min, sec := sec, prt := t }

/-! ### helper lemmas -/

theorem yearsToDays_lt {a b : Int} (h : a < b) :
    yearsToDays a < yearsToDays b := by
  unfold yearsToDays; omega

/-- days in the year -/
def yearLen (y : Int) : Int := if isleap y then 366 else 365

theorem isleap_iff (y : Int) : isleap y = true ↔ (y % 400 = 0 ∨ (y % 4 = 0 ∧ y % 100 ≠ 0)) := by
  simp [isleap]

theorem yearsToDays_succ (y : Int) : yearsToDays y = yearsToDays (y - 1) + yearLen y := by
  unfold yearLen
  by_cases h : isleap y = true
  · have h' := (isleap_iff y).1 h
    simp only [h, if_true]; unfold yearsToDays
    rcases h' with h' | h' <;> omega
  · have h' : ¬ _ := fun e => h ((isleap_iff y).2 e)
    simp only [h]; unfold yearsToDays; simp only [Bool.false_eq_true, if_false]
    omega

theorem yearLoop_eq (s y n : Int) (h1 : yearsToDays (y - 1) < s) (h2 : s ≤ yearsToDays y)
    (hn : 0 ≤ n) (hny : n ≤ y) : yearLoop s n = y := by
  generalize hk : (y - n).toNat = k
  induction k generalizing n with
  | zero =>
    have : n = y := by omega
    subst this
    unfold yearLoop
    rw [dif_neg (by omega)]
  | succ k ih =>
    have hlt : yearsToDays n < s := by
      by_cases he : n = y - 1
      · rw [he]; exact h1
      · have := yearsToDays_lt (a := n) (b := y - 1) (by omega)
        omega
    unfold yearLoop
    rw [dif_pos ⟨hlt, hn⟩]
    exact ih (n + 1) (by omega) (by omega) (by omega)

theorem start_le (s y : Int) (hs : 0 < s) (hy : 1 ≤ y) (h2 : s ≤ yearsToDays y) (hb : y < 10000000) :
    0 ≤ u32 ((s * 400).tdiv 146097) ∧ u32 ((s * 400).tdiv 146097) ≤ y := by
  have e : (s * 400).tdiv 146097 = s * 400 / 146097 := Int.tdiv_eq_ediv_of_nonneg (by omega)
  rw [e]
  have key : s * 400 / 146097 ≤ y := by
    unfold yearsToDays at h2
    obtain ⟨f, r, hf, hr0, hr⟩ : ∃ f r, y = 400 * f + r ∧ 0 ≤ r ∧ r < 400 :=
      ⟨y / 400, y % 400, by omega, by omega, by omega⟩
    have e4 : y / 4 = 100 * f + r / 4 := by omega
    have e100 : y / 100 = 4 * f + r / 100 := by omega
    have e400 : y / 400 = f := by omega
    rw [e4, e100, e400] at h2
    have : s * 400 < (y + 1) * 146097 := by omega
    have := Int.ediv_lt_of_lt_mul (by decide : (0:Int) < 146097) this
    omega
  have key0 : 0 ≤ s * 400 / 146097 := by omega
  unfold u32
  omega

end Gkc.Calendar
