import Verif.QueryLemmas
/-
Conditions, bounds and the choice of an index (used for C54).
-/
namespace Gkc.Query
open Gkc.Compare (Word)
open Gkc.TTree Std

section
variable {E : Env} [TransCmp E.cmp]

theorem lower_iff (lo : Word) (inc : Bool) (r : Row) :
    lower E lo inc r = true ↔ lo = E.ill ∨ (inc = true ∧ E.le lo (E.key r)) ∨ (inc = false ∧ E.lt lo (E.key r)) := by
  unfold lower
  by_cases hz : lo = E.ill
  · simp [hz]
  · rw [if_neg hz]
    cases inc
    · simp only [Bool.false_eq_true, if_false, decide_eq_true_eq, gt_iff, hz, false_or, false_and, true_and]
    · have := TTree.not_lt (E := E) (E.key r) lo
      simp only [if_true, decide_eq_true_eq, this, hz, false_or, true_and]
      simp

theorem upper_iff (hi : Word) (inc : Bool) (r : Row) :
    upper E hi inc r = true ↔ hi = E.ill ∨ (inc = true ∧ E.le (E.key r) hi) ∨ (inc = false ∧ E.lt (E.key r) hi) := by
  unfold upper
  by_cases hz : hi = E.ill
  · simp [hz]
  · rw [if_neg hz]
    cases inc
    · simp [hz, Env.lt]
    · simp [hz, Env.le]

theorem ne_ill {v : Word} (h : E.cmp v E.ill = .gt) : v ≠ E.ill := by
  intro e
  rw [e, ReflCmp.compare_self (cmp := E.cmp)] at h
  cases h

theorem lower_ge {lo v : Word} {inc : Bool} {r : Row} (hv : v ≠ E.ill) :
    lower E (if lo = E.ill ∨ E.cmp lo v = .lt then v else lo) (if lo = E.ill ∨ E.cmp lo v = .lt then true else inc) r = true ↔
      lower E lo inc r = true ∧ E.cmp (E.key r) v ≠ .lt := by
  rw [TTree.not_lt]
  by_cases hz : lo = E.ill
  · simp only [hz, true_or, if_true]
    rw [lower_iff, lower_iff]
    simp [hv]
  · by_cases hl : E.cmp lo v = .lt
    · simp only [hl, or_true, if_true]
      rw [lower_iff, lower_iff]
      simp only [hv, hz, false_or]
      constructor
      · rintro (⟨-, h⟩ | ⟨h, -⟩)
        · have := lt_of_lt_of_le hl h
          cases inc
          · exact ⟨Or.inr ⟨rfl, this⟩, h⟩
          · exact ⟨Or.inl ⟨rfl, le_of_lt this⟩, h⟩
        · cases h
      · rintro ⟨-, h⟩
        exact Or.inl ⟨by trivial, h⟩
    · simp only [hz, hl, or_self, if_false]
      constructor
      · intro h
        refine ⟨h, ?_⟩
        have hle := (TTree.not_lt _ _).1 hl
        rcases (lower_iff _ _ _).1 h with h | ⟨-, h⟩ | ⟨-, h⟩
        · exact absurd h hz
        · exact le_trans hle h
        · exact le_of_lt (lt_of_le_of_lt hle h)
      · exact fun h => h.1

theorem lower_gt {lo v : Word} {inc : Bool} {r : Row} (hv : v ≠ E.ill) :
    lower E (if lo = E.ill ∨ E.cmp lo v ≠ .gt then v else lo) (if lo = E.ill ∨ E.cmp lo v ≠ .gt then false else inc) r = true ↔
      lower E lo inc r = true ∧ E.cmp (E.key r) v = .gt := by
  rw [gt_iff (E.key r) v]
  by_cases hz : lo = E.ill
  · simp only [hz, true_or, if_true]
    rw [lower_iff, lower_iff]
    simp [hv]
  · by_cases hl : E.cmp lo v ≠ .gt
    · have hle : E.le lo v := hl
      rw [if_pos (Or.inr hl), if_pos (Or.inr hl), lower_iff, lower_iff]
      simp only [hv, hz, false_or]
      constructor
      · rintro (⟨h, -⟩ | ⟨-, h⟩)
        · cases h
        · have := lt_of_le_of_lt hle h
          cases inc
          · exact ⟨Or.inr ⟨rfl, this⟩, h⟩
          · exact ⟨Or.inl ⟨rfl, le_of_lt this⟩, h⟩
      · rintro ⟨-, h⟩
        exact Or.inr ⟨by trivial, h⟩
    · rw [if_neg (not_or.2 ⟨hz, hl⟩), if_neg (not_or.2 ⟨hz, hl⟩)]
      constructor
      · intro h
        refine ⟨h, ?_⟩
        have hlt : E.lt v lo := (gt_iff _ _).1 (Classical.not_not.1 hl)
        rcases (lower_iff _ _ _).1 h with h | ⟨-, h⟩ | ⟨-, h⟩
        · exact absurd h hz
        · exact lt_of_lt_of_le hlt h
        · exact lt_of_lt_of_le hlt (le_of_lt h)
      · exact fun h => h.1

theorem upper_le {hi v : Word} {inc : Bool} {r : Row} (hv : v ≠ E.ill) :
    upper E (if hi = E.ill ∨ E.cmp hi v = .gt then v else hi) (if hi = E.ill ∨ E.cmp hi v = .gt then true else inc) r = true ↔
      upper E hi inc r = true ∧ E.cmp (E.key r) v ≠ .gt := by
  show _ ↔ _ ∧ E.le _ _
  by_cases hz : hi = E.ill
  · simp only [hz, true_or, if_true]
    rw [upper_iff, upper_iff]
    simp [hv]
  · by_cases hl : E.cmp hi v = .gt
    · have hlt : E.lt v hi := (gt_iff _ _).1 hl
      simp only [hl, or_true, if_true]
      rw [upper_iff, upper_iff]
      simp only [hv, hz, false_or]
      constructor
      · rintro (⟨-, h⟩ | ⟨h, -⟩)
        · have := lt_of_le_of_lt h hlt
          cases inc
          · exact ⟨Or.inr ⟨rfl, this⟩, h⟩
          · exact ⟨Or.inl ⟨rfl, le_of_lt this⟩, h⟩
        · cases h
      · rintro ⟨-, h⟩
        exact Or.inl ⟨by trivial, h⟩
    · simp only [hz, hl, or_self, if_false]
      constructor
      · intro h
        refine ⟨h, ?_⟩
        have hle : E.le hi v := hl
        rcases (upper_iff _ _ _).1 h with h | ⟨-, h⟩ | ⟨-, h⟩
        · exact absurd h hz
        · exact le_trans h hle
        · exact le_of_lt (lt_of_lt_of_le h hle)
      · exact fun h => h.1

theorem upper_lt {hi v : Word} {inc : Bool} {r : Row} (hv : v ≠ E.ill) :
    upper E (if hi = E.ill ∨ E.cmp hi v ≠ .lt then v else hi) (if hi = E.ill ∨ E.cmp hi v ≠ .lt then false else inc) r = true ↔
      upper E hi inc r = true ∧ E.cmp (E.key r) v = .lt := by
  show _ ↔ _ ∧ E.lt _ _
  by_cases hz : hi = E.ill
  · simp only [hz, true_or, if_true]
    rw [upper_iff, upper_iff]
    simp [hv]
  · by_cases hl : E.cmp hi v ≠ .lt
    · have hle : E.le v hi := (TTree.not_lt _ _).1 hl
      rw [if_pos (Or.inr hl), if_pos (Or.inr hl), upper_iff, upper_iff]
      simp only [hv, hz, false_or]
      constructor
      · rintro (⟨h, -⟩ | ⟨-, h⟩)
        · cases h
        · have := lt_of_lt_of_le h hle
          cases inc
          · exact ⟨Or.inr ⟨rfl, this⟩, h⟩
          · exact ⟨Or.inl ⟨rfl, le_of_lt this⟩, h⟩
      · rintro ⟨-, h⟩
        exact Or.inr ⟨by trivial, h⟩
    · rw [if_neg (not_or.2 ⟨hz, hl⟩), if_neg (not_or.2 ⟨hz, hl⟩)]
      constructor
      · intro h
        refine ⟨h, ?_⟩
        have hlt : E.lt hi v := Classical.not_not.1 hl
        rcases (upper_iff _ _ _).1 h with h | ⟨-, h⟩ | ⟨-, h⟩
        · exact absurd h hz
        · exact lt_of_le_of_lt h hlt
        · exact lt_of_le_of_lt (le_of_lt h) hlt
      · exact fun h => h.1

end

/-! ### The bounds of a list of conditions -/

/-- the row is between the bounds -/
def within (d : Db) (c : Nat) (b : Bounds) (r : Row) : Prop :=
  lower (d.env c) b.lo b.loInc r = true ∧ upper (d.env c) b.hi b.hiInc r = true

/-- the bounds are values or not there; an exclusive bound comes from a condition -/
structure BOk (d : Db) (as : List Arg) (b : Bounds) : Prop where
  lo : b.lo = d.ill ∨ d.cmp b.lo d.ill = .gt
  hi : b.hi = d.ill ∨ d.cmp b.hi d.ill = .gt
  loEx : b.lo ≠ d.ill → b.loInc = false → ∃ a ∈ as, a.cond = .gt ∧ a.value = b.lo
  hiEx : b.hi ≠ d.ill → b.hiInc = false → ∃ a ∈ as, a.cond = .lt ∧ a.value = b.hi
  ne : b.ne = true ↔ ∃ a ∈ as, a.cond = .ne

theorem narrow_within {d : Db} [TransCmp d.cmp] {c : Nat} {b : Bounds} {a : Arg} (hv : d.cmp a.value d.ill = .gt) (r : Row) :
    within d c (d.narrow b a) r ↔ within d c b r ∧ (a.cond ≠ .ne → a.cond.test (d.cmp ((d.env c).key r) a.value) = true) := by
  haveI : TransCmp (d.env c).cmp := ‹TransCmp d.cmp›
  have hne : a.value ≠ (d.env c).ill := ne_ill (E := d.env c) hv
  have h1 := lower_ge (E := d.env c) (lo := b.lo) (inc := b.loInc) (r := r) hne
  have h2 := lower_gt (E := d.env c) (lo := b.lo) (inc := b.loInc) (r := r) hne
  have h3 := upper_le (E := d.env c) (hi := b.hi) (inc := b.hiInc) (r := r) hne
  have h4 := upper_lt (E := d.env c) (hi := b.hi) (inc := b.hiInc) (r := r) hne
  have ei : (d.env c).ill = d.ill := rfl
  have ec : (d.env c).cmp = d.cmp := rfl
  rw [ei, ec] at h1 h2 h3 h4
  unfold within Db.narrow
  cases hc : a.cond with
  | eq =>
    simp only [decide_eq_true_eq, Cond.test]
    have e1 : ∀ x : Bounds, (if x.lo = d.ill ∨ d.cmp x.lo a.value = .lt then { x with lo := a.value, loInc := true } else x) =
        { x with lo := if x.lo = d.ill ∨ d.cmp x.lo a.value = .lt then a.value else x.lo, loInc := if x.lo = d.ill ∨ d.cmp x.lo a.value = .lt then true else x.loInc } := by
      intro x; split <;> rfl
    have e2 : ∀ x : Bounds, (if x.hi = d.ill ∨ d.cmp x.hi a.value = .gt then { x with hi := a.value, hiInc := true } else x) =
        { x with hi := if x.hi = d.ill ∨ d.cmp x.hi a.value = .gt then a.value else x.hi, hiInc := if x.hi = d.ill ∨ d.cmp x.hi a.value = .gt then true else x.hiInc } := by
      intro x; split <;> rfl
    rw [e1, e2]
    simp only []
    rw [h1, h3]
    have : d.cmp ((d.env c).key r) a.value = .eq ↔ d.cmp ((d.env c).key r) a.value ≠ .lt ∧ d.cmp ((d.env c).key r) a.value ≠ .gt := by
      cases d.cmp ((d.env c).key r) a.value <;> simp
    rw [this]
    simp only [ne_eq, reduceCtorEq, not_false_eq_true, true_implies]
    constructor
    · rintro ⟨⟨x1, x2⟩, x3, x4⟩; exact ⟨⟨x1, x3⟩, x2, x4⟩
    · rintro ⟨⟨x1, x3⟩, x2, x4⟩; exact ⟨⟨x1, x2⟩, x3, x4⟩
  | lt =>
    simp only [decide_eq_true_eq, Cond.test]
    have e2 : ∀ x : Bounds, (if x.hi = d.ill ∨ d.cmp x.hi a.value ≠ .lt then { x with hi := a.value, hiInc := false } else x) =
        { x with hi := if x.hi = d.ill ∨ d.cmp x.hi a.value ≠ .lt then a.value else x.hi, hiInc := if x.hi = d.ill ∨ d.cmp x.hi a.value ≠ .lt then false else x.hiInc } := by
      intro x; split <;> rfl
    rw [e2]
    simp only []
    rw [h4, ← and_assoc]
    simp
  | gt =>
    simp only [decide_eq_true_eq, Cond.test]
    have e1 : ∀ x : Bounds, (if x.lo = d.ill ∨ d.cmp x.lo a.value ≠ .gt then { x with lo := a.value, loInc := false } else x) =
        { x with lo := if x.lo = d.ill ∨ d.cmp x.lo a.value ≠ .gt then a.value else x.lo, loInc := if x.lo = d.ill ∨ d.cmp x.lo a.value ≠ .gt then false else x.loInc } := by
      intro x; split <;> rfl
    rw [e1]
    simp only []
    rw [h2]
    simp only [ne_eq, reduceCtorEq, not_false_eq_true, true_implies]
    constructor
    · rintro ⟨⟨x1, x2⟩, x3⟩; exact ⟨⟨x1, x3⟩, x2⟩
    · rintro ⟨⟨x1, x3⟩, x2⟩; exact ⟨⟨x1, x2⟩, x3⟩
  | le =>
    simp only [decide_eq_true_eq, Cond.test]
    have e2 : ∀ x : Bounds, (if x.hi = d.ill ∨ d.cmp x.hi a.value = .gt then { x with hi := a.value, hiInc := true } else x) =
        { x with hi := if x.hi = d.ill ∨ d.cmp x.hi a.value = .gt then a.value else x.hi, hiInc := if x.hi = d.ill ∨ d.cmp x.hi a.value = .gt then true else x.hiInc } := by
      intro x; split <;> rfl
    rw [e2]
    simp only []
    rw [h3, ← and_assoc]
    simp
  | ge =>
    simp only [decide_eq_true_eq, Cond.test]
    have e1 : ∀ x : Bounds, (if x.lo = d.ill ∨ d.cmp x.lo a.value = .lt then { x with lo := a.value, loInc := true } else x) =
        { x with lo := if x.lo = d.ill ∨ d.cmp x.lo a.value = .lt then a.value else x.lo, loInc := if x.lo = d.ill ∨ d.cmp x.lo a.value = .lt then true else x.loInc } := by
      intro x; split <;> rfl
    rw [e1]
    simp only []
    rw [h1]
    simp only [ne_eq, reduceCtorEq, not_false_eq_true, true_implies]
    constructor
    · rintro ⟨⟨x1, x2⟩, x3⟩; exact ⟨⟨x1, x3⟩, x2⟩
    · rintro ⟨⟨x1, x3⟩, x2⟩; exact ⟨⟨x1, x2⟩, x3⟩
  | ne => simp
  | other => simp [Cond.test]

theorem narrow_ok {d : Db} {as : List Arg} {b : Bounds} {a : Arg} (hb : BOk d as b) (hv : d.cmp a.value d.ill = .gt) :
    BOk d (as ++ [a]) (d.narrow b a) := by
  obtain ⟨b1, b2, b3, b4, b5⟩ := hb
  have b3' : b.lo ≠ d.ill → b.loInc = false → ∃ x ∈ as ++ [a], x.cond = .gt ∧ x.value = b.lo := fun h1 h2 => by
    obtain ⟨x, m, hx⟩ := b3 h1 h2
    exact ⟨x, List.mem_append_left _ m, hx⟩
  have b4' : b.hi ≠ d.ill → b.hiInc = false → ∃ x ∈ as ++ [a], x.cond = .lt ∧ x.value = b.hi := fun h1 h2 => by
    obtain ⟨x, m, hx⟩ := b4 h1 h2
    exact ⟨x, List.mem_append_left _ m, hx⟩
  have b5' : a.cond ≠ .ne → (b.ne = true ↔ ∃ x ∈ as ++ [a], x.cond = .ne) := fun h => by
    rw [b5]
    constructor
    · rintro ⟨x, m, hx⟩; exact ⟨x, List.mem_append_left _ m, hx⟩
    · rintro ⟨x, m, hx⟩
      rcases List.mem_append.1 m with m | m
      · exact ⟨x, m, hx⟩
      · cases List.mem_singleton.1 m
        exact absurd hx h
  unfold Db.narrow
  cases hc : a.cond with
  | eq =>
    simp only
    rw [hc] at b5'
    split <;> split <;> exact ⟨by first | exact Or.inr hv | exact b1, by first | exact Or.inr hv | exact b2,
      by first | exact b3' | (intro _ h; cases h), by first | exact b4' | (intro _ h; cases h), b5' (by simp)⟩
  | lt =>
    simp only
    rw [hc] at b5'
    split
    · exact ⟨b1, Or.inr hv, b3', fun _ _ => ⟨a, by simp, hc, rfl⟩, b5' (by simp)⟩
    · exact ⟨b1, b2, b3', b4', b5' (by simp)⟩
  | gt =>
    simp only
    rw [hc] at b5'
    split
    · exact ⟨Or.inr hv, b2, fun _ _ => ⟨a, by simp, hc, rfl⟩, b4', b5' (by simp)⟩
    · exact ⟨b1, b2, b3', b4', b5' (by simp)⟩
  | le =>
    simp only
    rw [hc] at b5'
    split
    · exact ⟨b1, Or.inr hv, b3', (by intro _ h; cases h), b5' (by simp)⟩
    · exact ⟨b1, b2, b3', b4', b5' (by simp)⟩
  | ge =>
    simp only
    rw [hc] at b5'
    split
    · exact ⟨Or.inr hv, b2, (by intro _ h; cases h), b4', b5' (by simp)⟩
    · exact ⟨b1, b2, b3', b4', b5' (by simp)⟩
  | ne =>
    exact ⟨b1, b2, b3', b4', by simp only [true_iff]; exact ⟨a, by simp, hc⟩⟩
  | other =>
    rw [hc] at b5'
    exact ⟨b1, b2, b3', b4', b5' (by simp)⟩

theorem foldl_narrow {d : Db} [TransCmp d.cmp] {c : Nat} : ∀ (as' : List Arg) {as : List Arg} {b : Bounds}, BOk d as b →
    (∀ a ∈ as', d.cmp a.value d.ill = .gt) →
    BOk d (as ++ as') (as'.foldl d.narrow b) ∧ ∀ r, within d c (as'.foldl d.narrow b) r ↔
      within d c b r ∧ ∀ a ∈ as', a.cond ≠ .ne → a.cond.test (d.cmp ((d.env c).key r) a.value) = true
  | [], as, b, hb, _ => ⟨by simpa using hb, fun r => by simp⟩
  | a :: as', as, b, hb, hv => by
    have h0 := hv a (by simp)
    obtain ⟨h1, h2⟩ := foldl_narrow (c := c) as' (narrow_ok hb h0) (fun x hx => hv x (by simp [hx]))
    refine ⟨by simpa using h1, fun r => ?_⟩
    rw [List.foldl_cons, h2, narrow_within h0]
    simp only [List.mem_cons, forall_eq_or_imp, and_assoc]

/-- the bounds say what the conditions on the column say, but for "not equal" -/
theorem bounds_spec {d : Db} [TransCmp d.cmp] {args : List Arg} {c : Nat} (hv : ∀ a ∈ args, d.cmp a.value d.ill = .gt) :
    BOk d (args.filter fun a => a.column = c) (d.bounds args c) ∧ ∀ r, within d c (d.bounds args c) r ↔
      ∀ a ∈ args, a.column = c → a.cond ≠ .ne → a.cond.test (d.cmp ((d.env c).key r) a.value) = true := by
  obtain ⟨h1, h2⟩ := foldl_narrow (d := d) (c := c) (args.filter fun a => a.column = c) (as := [])
    (b := ⟨d.ill, d.ill, false, false, false⟩)
    ⟨Or.inl rfl, Or.inl rfl, fun h => absurd rfl h, fun h => absurd rfl h, by simp⟩
    (fun a ha => hv a ((List.mem_filter.1 ha).1))
  refine ⟨by simpa [Db.bounds] using h1, fun r => ?_⟩
  unfold Db.bounds
  rw [h2]
  have : within d c ⟨d.ill, d.ill, false, false, false⟩ r := by
    constructor
    · simp [lower, Db.env]
    · simp [upper, Db.env]
  simp only [this, true_and, List.mem_filter, decide_eq_true_eq]
  constructor
  · intro h a ha hc; exact h a ⟨ha, hc⟩
  · intro h a ha; exact h a ha.1 ha.2

/-! ### The choice of an index -/

theorem addScore_mem {c : Nat} {s : Int} : ∀ {l : List (Nat × Int)} {x : Nat × Int}, x ∈ addScore c s l → x.1 = c ∨ ∃ y ∈ l, y.1 = x.1
  | [], x, h => by
    cases List.mem_singleton.1 h
    exact Or.inl rfl
  | (c', s') :: xs, x, h => by
    unfold addScore at h
    split at h
    · rcases List.mem_cons.1 h with rfl | h
      · exact Or.inl ‹_›
      · exact Or.inr ⟨x, by simp [h], rfl⟩
    · rcases List.mem_cons.1 h with rfl | h
      · exact Or.inr ⟨_, by simp, rfl⟩
      · rcases addScore_mem h with h | ⟨y, hy, e⟩
        · exact Or.inl h
        · exact Or.inr ⟨y, by simp [hy], e⟩

theorem scores_mem : ∀ {args : List Arg} {l : List (Nat × Int)} {x : Nat × Int},
    x ∈ args.foldl (fun l a => addScore a.column a.score l) l → (∃ a ∈ args, a.column = x.1) ∨ ∃ y ∈ l, y.1 = x.1
  | [], l, x, h => Or.inr ⟨x, h, rfl⟩
  | a :: args, l, x, h => by
    rcases scores_mem (args := args) h with ⟨b, hb, e⟩ | ⟨y, hy, e⟩
    · exact Or.inl ⟨b, by simp [hb], e⟩
    · rcases addScore_mem hy with h | ⟨z, hz, e'⟩
      · exact Or.inl ⟨a, by simp, by rw [← e, h]⟩
      · exact Or.inr ⟨z, hz, e'.trans e⟩

theorem tmplFit_spec {d : Db} {args : List Arg} : ∀ {t : List Word} {j : Nat} {s s' : Int}, d.tmplFit args j t s = (s', true) →
    ∀ i w, t[i]? = some w → d.isVar w = false → ∃ a ∈ args, a.column = j + i ∧ a.cond = .eq ∧ d.cmp w a.value = .eq
  | [], _, _, _, _, i, w, h, _ => by simp at h
  | w' :: t, j, s, s', hf, i, w, h, hw => by
    unfold Db.tmplFit at hf
    by_cases hv : d.isVar w' = true
    · rw [if_pos hv] at hf
      cases i with
      | zero =>
        simp only [List.getElem?_cons_zero, Option.some.injEq] at h
        rw [h, hw] at hv
        cases hv
      | succ i =>
        obtain ⟨a, h1, h2, h3⟩ := tmplFit_spec hf i w (by simpa using h) hw
        exact ⟨a, h1, by omega, h3⟩
    · rw [if_neg hv] at hf
      simp only at hf
      split at hf
      · rename_i hc
        cases i with
        | zero =>
          simp only [List.getElem?_cons_zero, Option.some.injEq] at h
          subst h
          obtain ⟨a, ha⟩ := List.exists_mem_of_ne_nil _ hc.1
          have h2 := List.all_eq_true.1 hc.2 a ha
          simp only [decide_eq_true_eq] at h2
          have h1 := List.mem_filter.1 ha
          exact ⟨a, h1.1, by simpa using h1.2, h2⟩
        | succ i =>
          obtain ⟨a, h1, h2, h3⟩ := tmplFit_spec hf i w (by simpa using h) hw
          exact ⟨a, h1, by omega, h3⟩
      · simp at hf

/-- an index that may be used for the conditions -/
def Usable (d : Db) (args : List Arg) (c : Nat) (ix : Idx) : Prop :=
  ∃ x ∈ d.idxs c, x.kind = .ttree ix ∧ ∀ t, x.tmpl = some t → ∀ i w, t[i]? = some w → d.isVar w = false →
    ∃ a ∈ args, a.column = i ∧ a.cond = .eq ∧ d.cmp w a.value = .eq

theorem pickIndex_spec {d : Db} {args : List Arg} {ix : Idx} : ∀ {l : List Index} {s s' : Int}, d.pickIndex args l s = (s', some ix) →
    ∃ x ∈ l, x.kind = .ttree ix ∧ ∀ t, x.tmpl = some t → ∀ i w, t[i]? = some w → d.isVar w = false →
      ∃ a ∈ args, a.column = i ∧ a.cond = .eq ∧ d.cmp w a.value = .eq
  | [], _, _, h => by simp [Db.pickIndex] at h
  | x :: l, s, s', h => by
    unfold Db.pickIndex at h
    cases hk : x.kind with
    | hash =>
      rw [hk] at h
      obtain ⟨y, hy, h2⟩ := pickIndex_spec (l := l) h
      exact ⟨y, by simp [hy], h2⟩
    | ttree ix' =>
      rw [hk] at h
      simp only at h
      cases ht : x.tmpl with
      | none =>
        rw [ht] at h
        simp only [Prod.mk.injEq, Option.some.injEq] at h
        exact ⟨x, by simp, by rw [hk, h.2], fun t e => by rw [ht] at e; cases e⟩
      | some t =>
        rw [ht] at h
        simp only at h
        split at h
        · rename_i hf
          simp only [Prod.mk.injEq, Option.some.injEq] at h
          refine ⟨x, by simp, by rw [hk, h.2], fun t' e => ?_⟩
          rw [ht] at e
          cases e
          intro i w h1 h2
          have := tmplFit_spec hf i w h1 h2
          simpa using this
        · obtain ⟨y, hy, h2⟩ := pickIndex_spec (l := l) h
          exact ⟨y, by simp [hy], h2⟩

theorem bestColumn_spec {d : Db} {args : List Arg} {c : Nat} {ix : Idx} : ∀ {l : List (Nat × Int)} {m : Int} {best : Option (Nat × Idx)},
    d.bestColumn args l m best = some (c, ix) → (∃ x ∈ l, x.1 = c ∧ Usable d args c ix) ∨ best = some (c, ix)
  | [], _, _, h => Or.inr h
  | (c', s) :: l, m, best, h => by
    unfold Db.bestColumn at h
    generalize hp : (if c' ≤ maxIndexed then d.pickIndex args (d.idxs c') s else (s, none)) = p at h
    simp only at h
    by_cases hm : (if p.2.isSome then p.1 else 0) > m
    · rw [if_pos hm] at h
      rcases bestColumn_spec (l := l) h with ⟨x, hx, h2⟩ | h2
      · exact Or.inl ⟨x, by simp [hx], h2⟩
      · refine Or.inl ⟨(c', s), by simp, ?_⟩
        obtain ⟨s', o⟩ := p
        cases o with
        | none => simp at h2
        | some ix' =>
          simp only [Option.map_some, Option.some.injEq, Prod.mk.injEq] at h2
          obtain ⟨rfl, rfl⟩ := h2
          split at hp
          · exact ⟨rfl, pickIndex_spec hp⟩
          · simp at hp
    · rw [if_neg hm] at h
      rcases bestColumn_spec (l := l) h with ⟨x, hx, h2⟩ | h2
      · exact Or.inl ⟨x, by simp [hx], h2⟩
      · exact Or.inr h2

theorem restricting_spec {d : Db} {args : List Arg} {c : Nat} {ix : Idx} (h : d.restricting args = some (c, ix)) :
    (∃ a ∈ args, a.column = c) ∧ Usable d args c ix := by
  unfold Db.restricting at h
  rcases bestColumn_spec h with ⟨x, hx, e, h2⟩ | h2
  · rcases scores_mem hx with ⟨a, ha, e'⟩ | ⟨y, hy, _⟩
    · exact ⟨⟨a, ha, e'.trans e⟩, h2⟩
    · cases hy
  · cases h2

/-! ### Conditions -/

theorem mem_matchArgs {d : Db} {a : Arg} : ∀ {m : List Word} {i : Nat}, a ∈ d.matchArgs i m ↔
    ∃ j w, m[j]? = some w ∧ d.isVar w = false ∧ a = ⟨i + j, .eq, w⟩
  | [], i => by simp [Db.matchArgs]
  | w :: m, i => by
    have ih := mem_matchArgs (d := d) (a := a) (m := m) (i := i + 1)
    have key : (∃ j w', (w :: m)[j]? = some w' ∧ d.isVar w' = false ∧ a = ⟨i + j, .eq, w'⟩) ↔
        (d.isVar w = false ∧ a = ⟨i, .eq, w⟩) ∨ a ∈ d.matchArgs (i + 1) m := by
      rw [ih]
      constructor
      · rintro ⟨j, w', h1, h2, h3⟩
        cases j with
        | zero =>
          simp only [List.getElem?_cons_zero, Option.some.injEq] at h1
          subst h1
          exact Or.inl ⟨h2, by simpa using h3⟩
        | succ j => exact Or.inr ⟨j, w', by simpa using h1, h2, by rw [h3]; congr 1; omega⟩
      · rintro (⟨h1, h2⟩ | ⟨j, w', h1, h2, h3⟩)
        · exact ⟨0, w, rfl, h1, by simpa using h2⟩
        · exact ⟨j + 1, w', by simpa using h1, h2, by rw [h3]; congr 1; omega⟩
    rw [key]
    have e : d.matchArgs i (w :: m) = if d.isVar w then d.matchArgs (i + 1) m else ⟨i, .eq, w⟩ :: d.matchArgs (i + 1) m := rfl
    rw [e]
    by_cases hv : d.isVar w = true
    · rw [if_pos hv]
      simp [hv]
    · rw [if_neg hv, List.mem_cons]
      simp [Bool.eq_false_iff.2 hv]

end Gkc.Query
