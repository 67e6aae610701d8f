import Verif.Calendar
/-
Property theorems C04 (calendar) and C05 (time of day).
-/
namespace Gkc.Calendar

/-! ## Specification: the proleptic Gregorian calendar -/

/-- leap year rule -/
def SpecLeap (y : Int) : Prop := (4 ∣ y ∧ ¬ 100 ∣ y) ∨ 400 ∣ y

instance (y : Int) : Decidable (SpecLeap y) := inferInstanceAs (Decidable (_ ∨ _))

/-- length of a month -/
def daysIn (y m : Int) : Int :=
  if m = 2 then (if SpecLeap y then 29 else 28)
  else if m = 4 ∨ m = 6 ∨ m = 9 ∨ m = 11 then 30 else 31

/-- a valid calendar date, year at least 1 -/
def ValidDate (d : Ymd) : Prop :=
  1 ≤ d.yr ∧ 1 ≤ d.mo ∧ d.mo ≤ 12 ∧ 1 ≤ d.day ∧ d.day ≤ daysIn d.yr d.mo

instance (d : Ymd) : Decidable (ValidDate d) := inferInstanceAs (Decidable (_ ∧ _))

/-- the following calendar day -/
def nextDay (d : Ymd) : Ymd :=
  if d.day < daysIn d.yr d.mo then { d with day := d.day + 1 }
  else if d.mo < 12 then { d with mo := d.mo + 1, day := 1 }
  else { yr := d.yr + 1, mo := 1, day := 1 }

/-! ## lemmas -/

theorem isleap_spec (y : Int) : isleap y = true ↔ SpecLeap y := by
  rw [isleap_iff]; unfold SpecLeap; omega

/-- day of the year as computed by the code -/
def doy (y m d : Int) : Int :=
  d + (m * 3057 - 3007) / 100 - (if m > 2 then (if isleap y then 1 else 2) else 0)

theorem ymdToScalar_eq (y m d : Int) (hy : 1 ≤ y) (hyb : y < 4294967296) (hm1 : 1 ≤ m)
    (hm2 : m ≤ 12) (hd1 : 1 ≤ d) (hd2 : d ≤ 31) :
    ymdToScalar y m d = yearsToDays (y - 1) + doy y m d := by
  have e1 : u32 (y - 1) = y - 1 := by unfold u32; omega
  have e2 : monthsToDays m = (m * 3057 - 3007) / 100 := by
    unfold monthsToDays u32; omega
  have e3 : u32 (d + monthsToDays m) = d + (m * 3057 - 3007) / 100 := by
    rw [e2]; unfold u32; omega
  unfold ymdToScalar doy
  rw [e1, e3]
  simp only
  split <;> omega

theorem month_cases (m : Int) (h1 : 1 ≤ m) (h2 : m ≤ 12) :
    m = 1 ∨ m = 2 ∨ m = 3 ∨ m = 4 ∨ m = 5 ∨ m = 6 ∨ m = 7 ∨ m = 8 ∨ m = 9 ∨ m = 10 ∨
    m = 11 ∨ m = 12 := by omega

theorem daysIn_le (y m : Int) : daysIn y m ≤ 31 := by
  unfold daysIn; split <;> split <;> omega

theorem doy_range (y m d : Int) (hm1 : 1 ≤ m) (hm2 : m ≤ 12) (hd1 : 1 ≤ d)
    (hd2 : d ≤ daysIn y m) : 1 ≤ doy y m d ∧ doy y m d ≤ yearLen y := by
  unfold doy yearLen
  unfold daysIn at hd2
  simp only [← isleap_spec] at hd2
  rcases month_cases m hm1 hm2 with h | h | h | h | h | h | h | h | h | h | h | h <;> subst h <;>
    cases hl : isleap y <;> simp [hl] at hd2 ⊢ <;> omega

/-- the month/day part of `scalar_to_ymd` -/
def splitDoy (leap : Bool) (n : Int) : Int × Int :=
  let n := if n > 59 then
      let n := u32 (n + 2)
      if leap then u32 (n - (if n > 62 then 1 else 2)) else n
    else n
  let mo := u32 (n * 100 + 3007) / 3057
  (mo, u32 (n - monthsToDays mo))

/-- the whole (finite) table of days of a year, checked entry by entry -/
theorem splitDoy_table : ∀ (leap : Bool) (m : Fin 12) (d : Fin 31),
    ((d : Int) + 1 ≤ (if (m : Int) + 1 = 2 then (if leap then 29 else 28)
      else if (m : Int) + 1 = 4 ∨ (m : Int) + 1 = 6 ∨ (m : Int) + 1 = 9 ∨ (m : Int) + 1 = 11
        then 30 else 31)) →
    splitDoy leap ((d : Int) + 1 + (((m : Int) + 1) * 3057 - 3007) / 100
      - (if (m : Int) + 1 > 2 then (if leap then 1 else 2) else 0))
      = ((m : Int) + 1, (d : Int) + 1) := by decide +kernel

theorem splitDoy_doy (y m d : Int) (hm1 : 1 ≤ m) (hm2 : m ≤ 12) (hd1 : 1 ≤ d)
    (hd2 : d ≤ daysIn y m) : splitDoy (isleap y) (doy y m d) = (m, d) := by
  have h31 := daysIn_le y m
  unfold daysIn at hd2
  simp only [← isleap_spec] at hd2
  have := splitDoy_table (isleap y) ⟨(m - 1).toNat, by omega⟩ ⟨(d - 1).toNat, by omega⟩
  have em : (((⟨(m - 1).toNat, by omega⟩ : Fin 12) : Nat) : Int) + 1 = m := by
    show (((m - 1).toNat : Nat) : Int) + 1 = m
    omega
  have ed : (((⟨(d - 1).toNat, by omega⟩ : Fin 31) : Nat) : Int) + 1 = d := by
    show (((d - 1).toNat : Nat) : Int) + 1 = d
    omega
  rw [em, ed] at this
  exact this hd2

theorem scalarToYmd_eq (s y : Int) (h1 : yearsToDays (y - 1) < s) (h2 : s ≤ yearsToDays y)
    (hy : 1 ≤ y) (hb : y < 10000000) :
    scalarToYmd s =
      { yr := y, mo := (splitDoy (isleap y) (s - yearsToDays (y - 1))).1,
        day := (splitDoy (isleap y) (s - yearsToDays (y - 1))).2 } := by
  have hs : 0 < s := by
    have h : 0 ≤ yearsToDays (y - 1) := by unfold yearsToDays; omega
    omega
  obtain ⟨a, b⟩ := start_le s y hs hy h2 hb
  have e := yearLoop_eq s y _ h1 h2 a b
  have e1 : u32 (y - 1) = y - 1 := by unfold u32; omega
  have e2 : u32 (s - yearsToDays (y - 1)) = s - yearsToDays (y - 1) := by
    have := yearsToDays_succ y
    have : yearLen y ≤ 366 := by unfold yearLen; split <;> omega
    unfold u32; omega
  unfold scalarToYmd
  simp only [e, e1, e2]
  rfl

theorem year_of (s : Int) (hs : 1 ≤ s) :
    ∃ y, 1 ≤ y ∧ yearsToDays (y - 1) < s ∧ s ≤ yearsToDays y := by
  -- take the first n ≥ 0 with s ≤ yearsToDays n
  have hex : ∃ n : Nat, s ≤ yearsToDays n := ⟨s.toNat, by unfold yearsToDays; omega⟩
  have h0 : ¬ s ≤ yearsToDays ((0 : Nat) : Int) := by
    have : yearsToDays ((0 : Nat) : Int) = 0 := by decide
    omega
  have : ∀ k : Nat, s ≤ yearsToDays k →
      ∃ y : Int, 1 ≤ y ∧ yearsToDays (y - 1) < s ∧ s ≤ yearsToDays y := by
    intro k
    induction k with
    | zero => intro h; exact absurd h h0
    | succ k ih =>
      intro h
      by_cases hk : s ≤ yearsToDays k
      · exact ih hk
      · refine ⟨((k + 1 : Nat) : Int), by omega, ?_, h⟩
        have : ((k + 1 : Nat) : Int) - 1 = k := by omega
        rw [this]; omega
  obtain ⟨n, hn⟩ := hex
  exact this n hn

theorem splitDoy_valid (y n : Int) (h1 : 1 ≤ n) (h2 : n ≤ yearLen y) :
    1 ≤ (splitDoy (isleap y) n).1 ∧ (splitDoy (isleap y) n).1 ≤ 12 ∧
    1 ≤ (splitDoy (isleap y) n).2 ∧
    (splitDoy (isleap y) n).2 ≤ daysIn y (splitDoy (isleap y) n).1 ∧
    doy y (splitDoy (isleap y) n).1 (splitDoy (isleap y) n).2 = n := by
  -- choose the month by day of year
  have fin : ∃ m d, 1 ≤ m ∧ m ≤ 12 ∧ 1 ≤ d ∧ d ≤ daysIn y m ∧ doy y m d = n := by
    unfold yearLen at h2
    unfold doy daysIn
    simp only [← isleap_spec]
    have hb : n ≤ 366 := by split at h2 <;> omega
    have mk : ∀ (m lo hi : Int), lo < n → n ≤ hi →
        (1 ≤ m ∧ m ≤ 12 ∧
          lo = (m * 3057 - 3007) / 100 - (if m > 2 then (if isleap y then 1 else 2) else 0) ∧
          hi - lo ≤ (if m = 2 then (if isleap y = true then 29 else 28)
            else if m = 4 ∨ m = 6 ∨ m = 9 ∨ m = 11 then 30 else 31)) →
        ∃ m d, 1 ≤ m ∧ m ≤ 12 ∧ 1 ≤ d ∧
          d ≤ (if m = 2 then (if isleap y = true then 29 else 28)
            else if m = 4 ∨ m = 6 ∨ m = 9 ∨ m = 11 then 30 else 31) ∧
          d + (m * 3057 - 3007) / 100 - (if m > 2 then (if isleap y then 1 else 2) else 0) = n := by
      intro m lo hi hlo hhi ⟨a, b, c, d⟩
      exact ⟨m, n - lo, a, b, by omega, by omega, by omega⟩
    cases hl : isleap y with
    | true =>
      simp only [hl, if_true] at mk h2
      by_cases g1 : n ≤ 31
      · exact mk 1 0 31 (by omega) g1 (by decide)
      by_cases g2 : n ≤ 60
      · exact mk 2 31 60 (by omega) g2 (by decide)
      by_cases g3 : n ≤ 91
      · exact mk 3 60 91 (by omega) g3 (by decide)
      by_cases g4 : n ≤ 121
      · exact mk 4 91 121 (by omega) g4 (by decide)
      by_cases g5 : n ≤ 152
      · exact mk 5 121 152 (by omega) g5 (by decide)
      by_cases g6 : n ≤ 182
      · exact mk 6 152 182 (by omega) g6 (by decide)
      by_cases g7 : n ≤ 213
      · exact mk 7 182 213 (by omega) g7 (by decide)
      by_cases g8 : n ≤ 244
      · exact mk 8 213 244 (by omega) g8 (by decide)
      by_cases g9 : n ≤ 274
      · exact mk 9 244 274 (by omega) g9 (by decide)
      by_cases g10 : n ≤ 305
      · exact mk 10 274 305 (by omega) g10 (by decide)
      by_cases g11 : n ≤ 335
      · exact mk 11 305 335 (by omega) g11 (by decide)
      · exact mk 12 335 366 (by omega) (by omega) (by decide)
    | false =>
      simp only [hl, Bool.false_eq_true, if_false] at mk h2
      by_cases g1 : n ≤ 31
      · exact mk 1 0 31 (by omega) g1 (by decide)
      by_cases g2 : n ≤ 59
      · exact mk 2 31 59 (by omega) g2 (by decide)
      by_cases g3 : n ≤ 90
      · exact mk 3 59 90 (by omega) g3 (by decide)
      by_cases g4 : n ≤ 120
      · exact mk 4 90 120 (by omega) g4 (by decide)
      by_cases g5 : n ≤ 151
      · exact mk 5 120 151 (by omega) g5 (by decide)
      by_cases g6 : n ≤ 181
      · exact mk 6 151 181 (by omega) g6 (by decide)
      by_cases g7 : n ≤ 212
      · exact mk 7 181 212 (by omega) g7 (by decide)
      by_cases g8 : n ≤ 243
      · exact mk 8 212 243 (by omega) g8 (by decide)
      by_cases g9 : n ≤ 273
      · exact mk 9 243 273 (by omega) g9 (by decide)
      by_cases g10 : n ≤ 304
      · exact mk 10 273 304 (by omega) g10 (by decide)
      by_cases g11 : n ≤ 334
      · exact mk 11 304 334 (by omega) g11 (by decide)
      · exact mk 12 334 365 (by omega) (by omega) (by decide)
  obtain ⟨m, d, a, b, c, e, f⟩ := fin
  have := splitDoy_doy y m d a b c e
  rw [f] at this
  rw [this]
  exact ⟨a, b, c, e, f⟩

theorem year_bound {s y : Int} (h1 : yearsToDays (y - 1) < s) (hs : s ≤ 2147483647) :
    y < 10000000 := by
  unfold yearsToDays at h1; omega

/-! ## C04 -/

/-- C04 (a): a valid date whose day number fits in an `int` converts to a day number and back
unchanged. -/
theorem C04_date_roundtrip (y m d : Int) (hv : ValidDate ⟨y, m, d⟩)
    (hfit : yearsToDays y ≤ 2147483647) : dateToYmd (ymdToDate y m d) = ⟨y, m, d⟩ := by
  obtain ⟨hy, hm1, hm2, hd1, hd2⟩ := hv
  simp only at hy hm1 hm2 hd1 hd2
  have hd31 := daysIn_le y m
  obtain ⟨r1, r2⟩ := doy_range y m d hm1 hm2 hd1 hd2
  have hs := yearsToDays_succ y
  have hyb : y < 10000000 := by unfold yearsToDays at hfit; omega
  have e := ymdToScalar_eq y m d hy (by omega) hm1 hm2 hd1 (by omega)
  have hpos : 0 ≤ yearsToDays (y - 1) := by unfold yearsToDays; omega
  unfold ymdToDate
  rw [if_neg (by omega), e]
  have ei : i32 (yearsToDays (y - 1) + doy y m d) = yearsToDays (y - 1) + doy y m d := by
    unfold i32; omega
  rw [ei]
  unfold dateToYmd
  rw [scalarToYmd_eq _ y (by omega) (by omega) hy hyb]
  have : yearsToDays (y - 1) + doy y m d - yearsToDays (y - 1) = doy y m d := by omega
  simp only [this, splitDoy_doy y m d hm1 hm2 hd1 hd2, Ymd.mk.injEq]
  unfold i32; omega

/-- C04 (b): every positive `int` is the day number of a valid calendar date, which converts
back to it. -/
theorem C04_every_number_is_a_date (n : Int) (h1 : 1 ≤ n) (h2 : n ≤ 2147483647) :
    ValidDate (dateToYmd n) ∧
    ymdToDate (dateToYmd n).yr (dateToYmd n).mo (dateToYmd n).day = n := by
  obtain ⟨y, hy, ha, hb⟩ := year_of n h1
  have hyb := year_bound ha h2
  have hs := yearsToDays_succ y
  obtain ⟨v1, v2, v3, v4, v5⟩ := splitDoy_valid y (n - yearsToDays (y - 1)) (by omega) (by omega)
  generalize hm : (splitDoy (isleap y) (n - yearsToDays (y - 1))).1 = m at *
  generalize hd : (splitDoy (isleap y) (n - yearsToDays (y - 1))).2 = d at *
  have hd31 := daysIn_le y m
  have e : dateToYmd n = ⟨y, m, d⟩ := by
    unfold dateToYmd
    rw [scalarToYmd_eq n y ha hb hy hyb]
    simp only [hm, hd, Ymd.mk.injEq]
    unfold i32; omega
  rw [e]
  refine ⟨⟨hy, v1, v2, v3, v4⟩, ?_⟩
  unfold ymdToDate
  simp only
  rw [if_neg (by omega), ymdToScalar_eq y m d hy (by omega) v1 v2 v3 (by omega), v5]
  unfold i32; omega

/-- C04 (c): day numbers count days: 1 January of year 1 is day 1 and the next calendar day
has the next number. -/
theorem C04_counts_days :
    ymdToDate 1 1 1 = 1 ∧
    ∀ d : Ymd, ValidDate d → yearsToDays (d.yr + 1) ≤ 2147483647 →
      ymdToDate (nextDay d).yr (nextDay d).mo (nextDay d).day
        = ymdToDate d.yr d.mo d.day + 1 := by
  refine ⟨by decide, ?_⟩
  intro ⟨y, m, d⟩ hv hfit
  obtain ⟨hy, hm1, hm2, hd1, hd2⟩ := hv
  simp only at hy hm1 hm2 hd1 hd2 hfit
  have hyb : y < 10000000 := by unfold yearsToDays at hfit; omega
  have hs := yearsToDays_succ y
  have hs' := yearsToDays_succ (y + 1)
  have e11 : y + 1 - 1 = y := by omega
  rw [e11] at hs'
  have hl : 365 ≤ yearLen (y+1) := by unfold yearLen; split <;> omega
  have hpos : 0 ≤ yearsToDays (y - 1) := by unfold yearsToDays; omega
  have code : ∀ a b c, 1 ≤ a → a ≤ y + 1 → 1 ≤ b → b ≤ 12 → 1 ≤ c → c ≤ daysIn a b →
      ymdToDate a b c = yearsToDays (a - 1) + doy a b c := by
    intro a b c h1 h2 h3 h4 h5 h6
    have := daysIn_le a b
    obtain ⟨r1, r2⟩ := doy_range a b c h3 h4 h5 h6
    have hsa := yearsToDays_succ a
    have hpos' : 0 ≤ yearsToDays (a - 1) := by unfold yearsToDays; omega
    have : yearsToDays a ≤ yearsToDays (y + 1) := by
      by_cases h : a = y + 1
      · rw [h]; exact Int.le_refl _
      · exact Int.le_of_lt (yearsToDays_lt (by omega))
    unfold ymdToDate
    rw [if_neg (by omega), ymdToScalar_eq a b c h1 (by omega) h3 h4 h5 (by omega)]
    unfold i32; omega
  rw [code y m d hy (by omega) hm1 hm2 hd1 hd2]
  unfold nextDay
  simp only
  split
  · next h =>
    rw [code y m (d+1) hy (by omega) hm1 hm2 (by omega) (by omega)]
    unfold doy; omega
  · next h =>
    have hde : d = daysIn y m := by omega
    split
    · next h12 =>
      have hpos' : 1 ≤ daysIn y (m+1) := by unfold daysIn; split <;> split <;> omega
      simp only
      rw [code y (m+1) 1 hy (by omega) (by omega) (by omega) (by omega) hpos']
      have : doy y (m+1) 1 = doy y m d + 1 := by
        rw [hde]
        unfold doy daysIn
        simp only [← isleap_spec]
        rcases month_cases m hm1 hm2 with h | h | h | h | h | h | h | h | h | h | h | h <;>
          subst h <;> cases hl : isleap y <;> simp at h12 ⊢
      omega
    · next h12 =>
      have : m = 12 := by omega
      subst this
      have hpos' : 1 ≤ daysIn (y+1) 1 := by unfold daysIn; split <;> split <;> omega
      simp only
      rw [code (y+1) 1 1 (by omega) (by omega) (by omega) (by omega) (by omega) hpos', e11, hs]
      have : doy y 12 d = yearLen y := by
        rw [hde]; unfold doy daysIn yearLen
        cases hl : isleap y <;> simp
      have : doy (y+1) 1 1 = 1 := by unfold doy; simp
      omega

example : ValidDate ⟨2000, 2, 29⟩ ∧ ¬ ValidDate ⟨1900, 2, 29⟩ ∧
    dateToYmd (ymdToDate 2000 2 29) = ⟨2000, 2, 29⟩ := by
  refine ⟨by decide, by decide, C04_date_roundtrip 2000 2 29 (by decide) (by decide)⟩

/-- The converter does not reject dates that do not exist: 30 February is accepted as the same
day as 2 March. -/
theorem C04_accepts_invalid_day :
    ¬ ValidDate ⟨2001, 2, 30⟩ ∧ ymdToDate 2001 2 30 ≠ -1 ∧
    ymdToDate 2001 2 30 = ymdToDate 2001 3 2 := by decide

/-- Year 0 is accepted, but the unsigned year wraps around: 31 December of year 0 gets day
number 1041529570 although the following day (1 January of year 1) has number 1, and it reads
back as 9 February 2851612. -/
theorem C04_year_zero_wraps :
    ymdToDate 0 12 31 = 1041529570 ∧ ymdToDate 1 1 1 = 1 ∧
    dateToYmd (ymdToDate 0 12 31) = ⟨2851612, 2, 9⟩ := by
  refine ⟨by decide, by decide, ?_⟩
  have e : ymdToDate 0 12 31 = ymdToDate 2851612 2 9 := by decide
  rw [e]
  exact C04_date_roundtrip 2851612 2 9 (by decide) (by decide)

/-! ## C05 -/

/-- a valid time of day -/
def ValidTime (h m s p : Int) : Prop :=
  0 ≤ h ∧ h < 24 ∧ 0 ≤ m ∧ m < 60 ∧ 0 ≤ s ∧ s < 60 ∧ 0 ≤ p ∧ p < 100

/-- C05: times of day round-trip. -/
theorem C05_time_roundtrip (h m s p : Int) (hv : ValidTime h m s p) :
    timeToHms (hmsToTime h m s p) = ⟨h, m, s, p⟩ := by
  obtain ⟨a, b, c, d, e, f, g, i⟩ := hv
  unfold hmsToTime
  rw [if_neg (by omega)]
  unfold timeToHms
  have e1 : (h * (60*60*100) + m * (60*100) + s * 100 + p).tdiv (60*60*100) = h := by
    rw [Int.tdiv_eq_ediv_of_nonneg (by omega)]; omega
  have e2 : (h * (60*60*100) + m * (60*100) + s * 100 + p - h * (60*60*100)).tdiv (60*100) = m := by
    rw [Int.tdiv_eq_ediv_of_nonneg (by omega)]; omega
  have e3 : (h * (60*60*100) + m * (60*100) + s * 100 + p - h * (60*60*100) - m * (60*100)).tdiv 100
      = s := by
    rw [Int.tdiv_eq_ediv_of_nonneg (by omega)]; omega
  simp only [e1, e2, e3, Hms.mk.injEq, true_and]
  omega

/-- C05: the stored number is strictly increasing in the (lexicographic) time of day. -/
theorem C05_time_monotone (h m s p h' m' s' p' : Int) (hv : ValidTime h m s p)
    (hv' : ValidTime h' m' s' p') :
    hmsToTime h m s p < hmsToTime h' m' s' p' ↔
      (h < h' ∨ (h = h' ∧ (m < m' ∨ (m = m' ∧ (s < s' ∨ (s = s' ∧ p < p')))))) := by
  obtain ⟨a, b, c, d, e, f, g, i⟩ := hv
  obtain ⟨a', b', c', d', e', f', g', i'⟩ := hv'
  unfold hmsToTime
  rw [if_neg (by omega), if_neg (by omega)]
  omega

/-- C05: every number of hundredths within a day is a valid time, and converts back. -/
theorem C05_every_number_is_a_time (t : Int) (h0 : 0 ≤ t) (h1 : t < 8640000) :
    ValidTime (timeToHms t).hr (timeToHms t).min (timeToHms t).sec (timeToHms t).prt ∧
    hmsToTime (timeToHms t).hr (timeToHms t).min (timeToHms t).sec (timeToHms t).prt = t := by
  have e1 : t.tdiv (60*60*100) = t / 360000 := Int.tdiv_eq_ediv_of_nonneg h0
  have e2 : (t - t / 360000 * (60*60*100)).tdiv (60*100) = (t - t / 360000 * 360000) / 6000 :=
    Int.tdiv_eq_ediv_of_nonneg (by omega)
  have e3 : (t - t / 360000 * (60*60*100) - (t - t / 360000 * 360000) / 6000 * (60*100)).tdiv 100
      = (t - t / 360000 * 360000 - (t - t / 360000 * 360000) / 6000 * 6000) / 100 :=
    Int.tdiv_eq_ediv_of_nonneg (by omega)
  unfold timeToHms
  simp only [e1, e2, e3]
  unfold ValidTime hmsToTime
  refine ⟨by omega, ?_⟩
  rw [if_neg (by omega)]
  omega

example : ValidTime 23 59 59 99 := by unfold ValidTime; omega

/-- The validity check also accepts 60 minutes, 60 seconds and hour 24, so distinct accepted
inputs collide. -/
theorem C05_accepts_invalid_time :
    hmsToTime 0 60 0 0 = hmsToTime 1 0 0 0 ∧ hmsToTime 24 60 60 99 = 9006099 := by decide

end Gkc.Calendar
