import Verif.QueryBounds
import Verif.Props.TTree
/-
C54: a query gives exactly the records that satisfy its conditions.
-/
namespace Gkc.Props.Qu
open Gkc.Query Gkc.TTree
open Gkc.Compare (Word)
open Gkc.Props.TT (Reach Ordered)
open Std

/-! ### What a query should give -/

/-- the record has the column, and its value there is in the relation to the value of the condition -/
def Holds (d : Db) (a : Arg) (r : Row) : Prop := ∃ w, (d.fields r)[a.column]? = some w ∧
  match a.cond with
  | .eq => d.cmp w a.value = .eq
  | .ne => d.cmp w a.value = .lt ∨ d.cmp w a.value = .gt
  | .lt => d.cmp w a.value = .lt
  | .gt => d.cmp w a.value = .gt
  | .le => d.cmp w a.value = .lt ∨ d.cmp w a.value = .eq
  | .ge => d.cmp w a.value = .gt ∨ d.cmp w a.value = .eq
  | .other => True

/-- all conditions hold, and the fields are the same as those of the match record that are not variables -/
def Matches (d : Db) (matchrec : List Word) (args : List Arg) (r : Row) : Prop :=
  (∀ a ∈ args, Holds d a r) ∧
  ∀ (i : Nat) (w : Word), matchrec[i]? = some w → d.isVar w = false → ∃ f, (d.fields r)[i]? = some f ∧ d.cmp f w = .eq

/-- the record belongs into an index with this template -/
def Fits (d : Db) (r : Row) : Option (List Word) → Prop
  | none => True
  | some t => t.length ≤ (d.fields r).length ∧
      ∀ (i : Nat) (w f : Word), t[i]? = some w → d.isVar w = false → (d.fields r)[i]? = some f → d.cmp w f = .eq

/-- The order is one, the fields are values, every record comes once, templates end in a value, and
the T-trees have the records they should have. -/
structure Right (d : Db) : Prop where
  order : TransCmp d.cmp
  vals : ∀ r, ∀ w ∈ d.fields r, d.cmp w d.ill = .gt
  null : d.cmp 0 d.ill = .gt
  once : d.recs.Nodup
  nonzero : 0 ∉ d.recs
  trimmed : ∀ c, ∀ x ∈ d.idxs c, ∀ t, x.tmpl = some t → ∃ s w, t = s ++ [w] ∧ d.isVar w = false
  current : ∀ c, ∀ x ∈ d.idxs c, ∀ ix, x.kind = .ttree ix → ∃ rows, Reach (d.env c) ix rows ∧ rows.Nodup ∧
    ∀ r, r ∈ rows ↔ r ∈ d.recs ∧ c < (d.fields r).length ∧ Fits d r x.tmpl

/-- the conditions compare with values -/
def Valued (d : Db) (matchrec : List Word) (args : List Arg) : Prop :=
  (∀ a ∈ args, d.cmp a.value d.ill = .gt) ∧ ∀ w ∈ matchrec, d.isVar w = false → d.cmp w d.ill = .gt

/-- "greater than v" and "less than v" of the same column -/
def Clash (d : Db) (args : List Arg) : Prop :=
  ∃ a ∈ args, ∃ b ∈ args, a.column = b.column ∧ a.cond = .gt ∧ b.cond = .lt ∧ d.cmp a.value b.value = .eq

/-! ### Proof -/

theorem test_iff (o : Ordering) (c : Cond) : c.test o = true ↔ match c with
    | .eq => o = .eq
    | .ne => o = .lt ∨ o = .gt
    | .lt => o = .lt
    | .gt => o = .gt
    | .le => o = .lt ∨ o = .eq
    | .ge => o = .gt ∨ o = .eq
    | .other => True := by
  cases c <;> cases o <;> simp [Cond.test]

theorem holds_iff {d : Db} {a : Arg} {r : Row} : Holds d a r ↔ ∃ w, (d.fields r)[a.column]? = some w ∧ a.cond.test (d.cmp w a.value) = true := by
  unfold Holds
  constructor
  · rintro ⟨w, h1, h2⟩
    exact ⟨w, h1, (test_iff _ _).2 h2⟩
  · rintro ⟨w, h1, h2⟩
    exact ⟨w, h1, (test_iff _ _).1 h2⟩

theorem check_iff {d : Db} {args : List Arg} {r : Row} : d.check args r = true ↔ ∀ a ∈ args, Holds d a r := by
  unfold Db.check
  rw [List.all_eq_true]
  refine forall_congr' fun a => forall_congr' fun _ => ?_
  rw [holds_iff]
  cases (d.fields r)[a.column]? with
  | none => simp
  | some w => simp

theorem matches_iff {d : Db} {matchrec : List Word} {args : List Arg} {r : Row} :
    Matches d matchrec args r ↔ d.check (d.params matchrec args) r = true := by
  rw [check_iff]
  unfold Matches Db.params
  constructor
  · rintro ⟨h1, h2⟩ a ha
    rcases List.mem_append.1 ha with ha | ha
    · exact h1 a ha
    · obtain ⟨j, w, e1, e2, rfl⟩ := mem_matchArgs.1 ha
      obtain ⟨f, f1, f2⟩ := h2 j w e1 e2
      exact ⟨f, by simpa using f1, f2⟩
  · intro h
    refine ⟨fun a ha => h a (List.mem_append_left _ ha), fun i w h1 h2 => ?_⟩
    obtain ⟨f, f1, f2⟩ := h ⟨0 + i, .eq, w⟩ (List.mem_append_right _ (mem_matchArgs.2 ⟨i, w, h1, h2, rfl⟩))
    exact ⟨f, by simpa using f1, f2⟩

theorem Right.envOk {d : Db} (h : Right d) (c : Nat) : (d.env c).Ok := by
  refine ⟨h.order, fun r => ?_⟩
  show d.cmp ((d.fields r).getD c 0) d.ill = .gt
  rw [List.getD_eq_getElem?_getD]
  cases hg : (d.fields r)[c]? with
  | none => exact h.null
  | some w => exact h.vals r w (List.mem_of_getElem? hg)

theorem key_eq {d : Db} {c : Nat} {r : Row} {w : Word} (h : (d.fields r)[c]? = some w) : (d.env c).key r = w := by
  show (d.fields r).getD c 0 = w
  rw [List.getD_eq_getElem?_getD, h]
  rfl

theorem key_get {d : Db} {c : Nat} {r : Row} (h : c < (d.fields r).length) : (d.fields r)[c]? = some ((d.env c).key r) := by
  rw [key_eq (List.getElem?_eq_getElem h)]
  exact List.getElem?_eq_getElem h

/-- the tree of an index that is current -/
theorem Right.index {d : Db} (h : Right d) {c : Nat} {x : Index} {ix : Idx} (hx : x ∈ d.idxs c) (hk : x.kind = .ttree ix) :
    (Good (d.env c) ix ∨ Blank (d.env c) ix) ∧ ix.tree.rows.Nodup ∧ Ordered (d.env c) ix.tree.rows ∧
    ∀ r, r ∈ ix.tree.rows ↔ r ∈ d.recs ∧ c < (d.fields r).length ∧ Fits d r x.tmpl := by
  obtain ⟨rows, h1, h2, h3⟩ := h.current c x hx ix hk
  obtain ⟨i1, i2⟩ := TT.reach_inv (h.envOk c) h1
  have ho := (TT.C53_index_right_partial (h.envOk c) h1).2.1
  rw [TT.contents_eq] at ho
  exact ⟨i1, i2.nodup_iff.2 h2, ho, fun r => by rw [i2.mem_iff, h3]⟩

theorem ordered_filter {E : Env} {l : List Row} {p : Row → Bool} (h : Ordered E l) : Ordered E (l.filter p) := by
  have h1 : l.Pairwise fun a b => E.cmp (E.key a) (E.key b) ≠ .gt := by
    rw [List.pairwise_iff_getElem]
    intro i j hi hj hij
    exact h i j _ _ hij (List.getElem?_eq_getElem hi) (List.getElem?_eq_getElem hj)
  have h2 := h1.filter p
  intro i j a b hij ha hb
  obtain ⟨hi, rfl⟩ := List.getElem?_eq_some_iff.1 ha
  obtain ⟨hj, rfl⟩ := List.getElem?_eq_some_iff.1 hb
  exact List.pairwise_iff_getElem.1 h2 i j hi hj hij

/-- a row is on the right side of one of the bounds -/
theorem one_side {d : Db} [TransCmp d.cmp] {c : Nat} {as : List Arg} {b : Bounds} (hb : BOk d as b)
    (hle : ¬ (b.lo ≠ d.ill ∧ b.hi ≠ d.ill ∧ d.cmp b.lo b.hi = .gt))
    (hcl : ¬ ∃ x ∈ as, ∃ y ∈ as, x.cond = .gt ∧ y.cond = .lt ∧ d.cmp x.value y.value = .eq) (r : Row) :
    lower (d.env c) b.lo b.loInc r = true ∨ upper (d.env c) b.hi b.hiInc r = true := by
  haveI : TransCmp (d.env c).cmp := ‹TransCmp d.cmp›
  by_cases h1 : lower (d.env c) b.lo b.loInc r = true
  · exact Or.inl h1
  by_cases h2 : upper (d.env c) b.hi b.hiInc r = true
  · exact Or.inr h2
  exfalso
  rw [lower_iff] at h1
  rw [upper_iff] at h2
  simp only [not_or] at h1 h2
  obtain ⟨l0, l1, l2⟩ := h1
  obtain ⟨u0, u1, u2⟩ := h2
  have hlo : (d.env c).le b.lo b.hi := fun hc => hle ⟨l0, u0, hc⟩
  generalize hkey : (d.env c).key r = k at *
  have hk1 : (d.env c).le k b.lo := by
    cases hi : b.loInc with
    | true =>
      refine TTree.le_of_lt ((gt_iff _ _).1 (Classical.not_not.1 fun hc => l1 ⟨hi, ?_⟩))
      exact hc
    | false =>
      exact (TTree.not_lt _ _).1 fun hc => l2 ⟨hi, hc⟩
  have hk2 : (d.env c).le b.hi k := by
    cases hi : b.hiInc with
    | true =>
      refine TTree.le_of_lt ((gt_iff _ _).1 (Classical.not_not.1 fun hc => u1 ⟨hi, ?_⟩))
      exact hc
    | false =>
      exact (TTree.not_lt _ _).1 fun hc => u2 ⟨hi, hc⟩
  cases hi : b.loInc with
  | true => exact l1 ⟨hi, TTree.le_trans hlo hk2⟩
  | false =>
    cases hj : b.hiInc with
    | true => exact u1 ⟨hj, TTree.le_trans hk1 hlo⟩
    | false =>
      obtain ⟨x, x1, x2, x3⟩ := hb.loEx l0 hi
      obtain ⟨y, y1, y2, y3⟩ := hb.hiEx u0 hj
      refine hcl ⟨x, x1, y, y1, x2, y2, ?_⟩
      rw [x3, y3]
      have hge : (d.env c).le b.hi b.lo := TTree.le_trans hk2 hk1
      have n1 : d.cmp b.lo b.hi ≠ .gt := hlo
      have n2 : d.cmp b.lo b.hi ≠ .lt := (TTree.not_lt (E := d.env c) _ _).2 hge
      cases ho : d.cmp b.lo b.hi with
      | lt => exact absurd ho n2
      | gt => exact absurd ho n1
      | eq => rfl

/-- nothing is between bounds in the wrong order -/
theorem no_row {d : Db} [TransCmp d.cmp] {c : Nat} {b : Bounds} (hl : b.lo ≠ d.ill) (hh : b.hi ≠ d.ill) (hgt : d.cmp b.lo b.hi = .gt) (r : Row) :
    ¬ within d c b r := by
  haveI : TransCmp (d.env c).cmp := ‹TransCmp d.cmp›
  rintro ⟨h1, h2⟩
  have k1 : (d.env c).le b.lo ((d.env c).key r) := by
    rcases (lower_iff _ _ _).1 h1 with h | ⟨_, h⟩ | ⟨_, h⟩
    · exact absurd h hl
    · exact h
    · exact TTree.le_of_lt h
  have k2 : (d.env c).le ((d.env c).key r) b.hi := by
    rcases (upper_iff _ _ _).1 h2 with h | ⟨_, h⟩ | ⟨_, h⟩
    · exact absurd h hh
    · exact h
    · exact TTree.le_of_lt h
  exact TTree.le_trans k1 k2 hgt

theorem blank_returns {d : Db} {ix : Idx} : Returns d (.ttree ix ⟨none, 0, none, -1⟩ []) [] := by
  intro n
  induction n with
  | zero => rfl
  | succ n ih =>
    unfold calls
    have : d.fetch (.ttree ix ⟨none, 0, none, -1⟩ []) = some (none, .ttree ix ⟨none, 0, none, -1⟩ []) := by
      simp [Db.fetch, fetchT, stepT]
    rw [this]
    simp only []
    rw [ih, range_shift]
    simp

theorem gathered {d : Db} {limit : Nat} {q : Query} {all : List Row} (hg : Gives d q all) (hsz : all.length ≤ q.size d)
    (hz : ∀ r ∈ all, r ≠ 0) :
    ∃ q', d.gather limit (q.size d + 1) q [] 0 = some q' ∧ Returns d q' (limited limit all) ∧
      q'.count = some (limited limit all).length := by
  obtain ⟨ps, m, e1, e2, e3, e4⟩ := gather_spec (limit := limit) (fuel := q.size d + 1) (ps := []) (n := 0) hg (by omega) trivial rfl (by omega)
  have e3 : ps.flatten = limited limit all := by simpa using e3
  refine ⟨.pages ps 0 m, e1, ?_, ?_⟩
  · have := pages_returns (d := d) (m := m) _ (ps := ps) (i := 0) rfl e2 (by
      rw [e3]
      intro r hr
      refine hz r ?_
      unfold limited at hr
      split at hr
      · exact hr
      · exact List.mem_of_mem_take hr) (by decide)
    rw [e3] at this
    simpa using this
  · simp only [Query.count, e4, e3]

/-- the rows of an index that are between the bounds and pass the other conditions -/
theorem index_rows {d : Db} (h : Right d) {full : List Arg} (hv : ∀ a ∈ full, d.cmp a.value d.ill = .gt) {c : Nat} {ix : Idx}
    (hres : d.restricting full = some (c, ix)) (r : Row) :
    r ∈ (ix.tree.rows.filter fun r => lower (d.env c) (d.bounds full c).lo (d.bounds full c).loInc r &&
        upper (d.env c) (d.bounds full c).hi (d.bounds full c).hiInc r).filter
          (d.check (if (d.bounds full c).ne then full else full.filter fun a => a.column ≠ c)) ↔
      r ∈ d.recs ∧ d.check full r = true := by
  haveI := h.order
  obtain ⟨⟨a0, ha0, hc0⟩, x, hx, hk, ht⟩ := restricting_spec hres
  obtain ⟨_, _, _, hmem⟩ := h.index hx hk
  obtain ⟨hb, hw⟩ := bounds_spec (d := d) (args := full) (c := c) hv
  have hwr := hw r
  unfold within at hwr
  rw [List.mem_filter, List.mem_filter, hmem, Bool.and_eq_true, hwr]
  constructor
  · rintro ⟨⟨⟨h1, h2, h3⟩, h4⟩, h5⟩
    refine ⟨h1, ?_⟩
    rw [check_iff] at h5 ⊢
    intro a ha
    by_cases hn : (d.bounds full c).ne = true
    · rw [if_pos hn] at h5
      exact h5 a ha
    · rw [if_neg hn] at h5
      by_cases hc : a.column = c
      · have hcn : a.cond ≠ .ne := fun e => hn (hb.ne.2 ⟨a, List.mem_filter.2 ⟨ha, by simpa using hc⟩, e⟩)
        exact holds_iff.2 ⟨_, by rw [hc]; exact key_get h2, h4 a ha hc hcn⟩
      · exact h5 a (List.mem_filter.2 ⟨ha, by simpa using hc⟩)
  · rintro ⟨h1, h2⟩
    rw [check_iff] at h2
    have hlen : c < (d.fields r).length := by
      obtain ⟨w, hw, _⟩ := h2 a0 ha0
      rw [hc0] at hw
      exact (List.getElem?_eq_some_iff.1 hw).1
    refine ⟨⟨⟨h1, hlen, ?_⟩, ?_⟩, ?_⟩
    · cases hxt : x.tmpl with
      | none => trivial
      | some t =>
        have hfix : ∀ (i : Nat) (w : Word), t[i]? = some w → d.isVar w = false → ∃ f, (d.fields r)[i]? = some f ∧ d.cmp w f = .eq := by
          intro i w hi hvar
          obtain ⟨a, m1, m2, m3, m4⟩ := ht t hxt i w hi hvar
          obtain ⟨f, f1, f2⟩ := h2 a m1
          rw [m2] at f1
          rw [m3] at f2
          simp only at f2
          exact ⟨f, f1, TransCmp.eq_trans (cmp := d.cmp) m4 (OrientedCmp.eq_symm (cmp := d.cmp) f2)⟩
        refine ⟨?_, fun i w f hi hvar hf => ?_⟩
        · obtain ⟨s, w, e1, e2⟩ := h.trimmed c x hx t hxt
          obtain ⟨f, f1, _⟩ := hfix s.length w (by rw [e1]; simp) e2
          have := (List.getElem?_eq_some_iff.1 f1).1
          rw [e1]
          simp only [List.length_append, List.length_singleton]
          omega
        · obtain ⟨f', f1, f2⟩ := hfix i w hi hvar
          rw [hf] at f1
          cases f1
          exact f2
    · intro a ha hc _
      obtain ⟨w, w1, w2⟩ := holds_iff.1 (h2 a ha)
      rw [hc] at w1
      rw [key_eq w1]
      exact w2
    · rw [check_iff]
      intro a ha
      split at ha
      · exact h2 a ha
      · exact h2 a (List.mem_filter.1 ha).1

/-- the query before rows are fetched -/
theorem plan_spec {d : Db} (h : Right d) {full : List Arg} (hv : ∀ a ∈ full, d.cmp a.value d.ill = .gt)
    (hcl : ∀ c, ¬ ∃ x ∈ full.filter (fun a => a.column = c), ∃ y ∈ full.filter (fun a => a.column = c),
      x.cond = .gt ∧ y.cond = .lt ∧ d.cmp x.value y.value = .eq) :
    (∃ ix, d.plan full = some (some (.ttree ix ⟨none, 0, none, -1⟩ [], true)) ∧ ∀ r, ¬ d.check full r = true) ∨
    ∃ q all, d.plan full = some (some (q, false)) ∧ Gives d q all ∧ all.length ≤ q.size d ∧ all.Nodup ∧
      (∀ r, r ∈ all ↔ r ∈ d.recs ∧ d.check full r = true) ∧
      (all.Sublist d.recs ∨ ∃ a ∈ full, Ordered (d.env a.column) all) := by
  haveI := h.order
  unfold Db.plan
  cases hres : d.restricting full with
  | none =>
    exact Or.inr ⟨.scan d.recs full, d.recs.filter (d.check full), rfl, scan_gives _ rfl, List.length_filter_le _ _,
      h.once.filter _, fun r => List.mem_filter, Or.inl List.filter_sublist⟩
  | some ci =>
    obtain ⟨c, ix⟩ := ci
    obtain ⟨⟨a0, ha0, hc0⟩, x, hx, hk, _⟩ := restricting_spec hres
    obtain ⟨hix, hnd, hord, _⟩ := h.index hx hk
    obtain ⟨hb, hw⟩ := bounds_spec (d := d) (args := full) (c := c) hv
    have hrows := index_rows h hv hres
    simp only []
    by_cases he : (d.bounds full c).lo ≠ d.ill ∧ (d.bounds full c).hi ≠ d.ill ∧ d.cmp (d.bounds full c).lo (d.bounds full c).hi = .gt
    · rw [if_pos he]
      refine Or.inl ⟨ix, rfl, fun r hc => no_row (c := c) he.1 he.2.1 he.2.2 r ((hw r).2 fun a ha hac _ => ?_)⟩
      obtain ⟨w, w1, w2⟩ := holds_iff.1 (check_iff.1 hc a ha)
      rw [hac] at w1
      rw [key_eq w1]
      exact w2
    · rw [if_neg he]
      obtain ⟨cur, f1, f2⟩ := findBounds_spec (h.envOk c) hix (loInc := (d.bounds full c).loInc) (hiInc := (d.bounds full c).hiInc)
        hb.lo hb.hi (fun r _ => one_side hb he (hcl c) r)
      rw [f1]
      have hlen : (ix.tree.rows.filter fun r => lower (d.env c) (d.bounds full c).lo (d.bounds full c).loInc r &&
        upper (d.env c) (d.bounds full c).hi (d.bounds full c).hiInc r).length ≤ rowCount ix := by
        rw [rowCount_eq]
        exact List.length_filter_le _ _
      exact Or.inr ⟨_, _, rfl, runs_gives _ rfl f2 hlen, Nat.le_trans (List.length_filter_le _ _) hlen,
        (hnd.filter _).filter _, hrows, Or.inr ⟨a0, ha0, by rw [hc0]; exact ordered_filter (ordered_filter hord)⟩⟩

/-! ### Theorems -/

/-- A query is made, and wg_fetch gives the records that satisfy the conditions, each once, and then
NULL for ever: all of them or, with a limit, the first ones.  They come in the order of the database, or
in the order of a column in the conditions. -/
theorem C54_query_partial {d : Db} (h : Right d) {matchrec : List Word} {args : List Arg} (hv : Valued d matchrec args)
    (hcl : ¬ Clash d args) (limit : Nat) :
    ∃ q all, d.makeQuery matchrec args limit = some (some q) ∧ all.Nodup ∧
      (∀ r, r ∈ all ↔ r ∈ d.recs ∧ Matches d matchrec args r) ∧
      Returns d q (limited limit all) ∧
      (q.count = some (limited limit all).length ∨ (q.count = none ∧ all = [])) ∧
      (all.Sublist d.recs ∨ ∃ c, ((∃ a ∈ args, a.column = c) ∨ ∃ w, matchrec[c]? = some w ∧ d.isVar w = false) ∧ Ordered (d.env c) all) := by
  haveI := h.order
  have hvf : ∀ a ∈ d.params matchrec args, d.cmp a.value d.ill = .gt := by
    intro a ha
    rcases List.mem_append.1 ha with ha | ha
    · exact hv.1 a ha
    · obtain ⟨j, w, e1, e2, rfl⟩ := mem_matchArgs.1 ha
      exact hv.2 w (List.mem_of_getElem? e1) e2
  have hclf : ∀ c, ¬ ∃ x ∈ (d.params matchrec args).filter (fun a => a.column = c), ∃ y ∈ (d.params matchrec args).filter (fun a => a.column = c),
      x.cond = .gt ∧ y.cond = .lt ∧ d.cmp x.value y.value = .eq := by
    rintro c ⟨x, hx, y, hy, c1, c2, c3⟩
    obtain ⟨hx1, hx2⟩ := List.mem_filter.1 hx
    obtain ⟨hy1, hy2⟩ := List.mem_filter.1 hy
    have e : x.column = y.column := by
      simp only [decide_eq_true_eq] at hx2 hy2
      rw [hx2, hy2]
    have key : ∀ z ∈ d.params matchrec args, z.cond ≠ .eq → z ∈ args := by
      intro z hz hne
      rcases List.mem_append.1 hz with hz | hz
      · exact hz
      · obtain ⟨j, w, _, _, rfl⟩ := mem_matchArgs.1 hz
        exact absurd rfl hne
    exact hcl ⟨x, key x hx1 (by rw [c1]; simp), y, key y hy1 (by rw [c2]; simp), e, c1, c2, c3⟩
  simp only [matches_iff]
  unfold Db.makeQuery
  rcases plan_spec h hvf hclf with ⟨ix, e, hno⟩ | ⟨q, all, e, h1, h2, h3, h4, h5⟩
  · rw [e]
    refine ⟨_, [], rfl, List.nodup_nil, fun r => ⟨fun hr => (nomatch hr), fun hr => absurd hr.2 (hno r)⟩, ?_, Or.inr ⟨rfl, rfl⟩,
      Or.inl (List.nil_sublist _)⟩
    have : limited limit ([] : List Row) = [] := by simp [limited]
    rw [this]
    exact blank_returns
  · rw [e]
    obtain ⟨q', g1, g2, g3⟩ := gathered (limit := limit) h1 h2 (fun r hr hz => h.nonzero (by rw [← hz]; exact ((h4 r).1 hr).1))
    refine ⟨q', all, by simp only []; rw [g1]; rfl, h3, h4, g2, Or.inl g3, h5.imp id ?_⟩
    rintro ⟨a, ha, ho⟩
    refine ⟨a.column, ?_, ho⟩
    rcases List.mem_append.1 ha with ha | ha
    · exact Or.inl ⟨a, ha, rfl⟩
    · obtain ⟨j, w, e1, e2, rfl⟩ := mem_matchArgs.1 ha
      exact Or.inr ⟨w, by simpa using e1, e2⟩

/-! ### Simple queries -/

theorem split_index {l a b : List Row} {x : Row} {i : Nat} (hn : l.Nodup) (e : l = a ++ x :: b) (hi : l[i]? = some x) : i = a.length := by
  obtain ⟨h1, h2⟩ := List.getElem?_eq_some_iff.1 hi
  have h3 : a.length < l.length := by rw [e]; simp
  have h4 : l[a.length] = x := by simp [e]
  have hp := List.pairwise_iff_getElem.1 hn
  rcases Nat.lt_trichotomy i a.length with hlt | heq | hgt
  · exact absurd (h2.trans h4.symm) (hp _ _ h1 h3 hlt)
  · exact heq
  · exact absurd (h4.trans h2.symm) (hp _ _ h3 h1 hgt)

theorem dropWhile_split {a b : List Row} {x : Row} (h : x ∉ a) : (a ++ x :: b).dropWhile (· ≠ x) = x :: b := by
  induction a with
  | nil => simp
  | cons y a ih =>
    simp only [List.mem_cons, not_or] at h
    rw [List.cons_append, List.dropWhile_cons_of_pos (by simpa using fun e => h.1 e.symm)]
    exact ih h.2

theorem walk_none {ix : Idx} {l : List Row} {c : Cursor} {fuel : Nat} (h : Runs ix c l) (hf : 0 < fuel) :
    walk ix none fuel none c = some l.head? := by
  cases fuel with
  | zero => omega
  | succ fuel =>
    unfold walk
    cases l with
    | nil =>
      have h : stepT ix c = some none := h
      rw [h]; rfl
    | cons r l =>
      obtain ⟨c', h, _⟩ := h
      rw [h]; simp

theorem walk_some {ix : Idx} {x : Row} : ∀ {a b : List Row} {c : Cursor} {fuel : Nat} {prev : Option Row}, Runs ix c (a ++ x :: b) →
    x ∉ a → prev ≠ some x → a.length + b.length + 1 < fuel → walk ix (some x) fuel prev c = some b.head?
  | _, _, _, 0, _, _, _, _, hf => by omega
  | [], b, c, fuel + 1, prev, ⟨c', h, h2⟩, _, hp, hf => by
    unfold walk
    rw [h]
    simp only [hp, if_false]
    cases fuel with
    | zero => simp at hf
    | succ fuel =>
      unfold walk
      cases b with
      | nil =>
        have h2 : stepT ix c' = some none := h2
        rw [h2]; rfl
      | cons r b =>
        obtain ⟨c2, h2, _⟩ := h2
        rw [h2]; simp
  | y :: a, b, c, fuel + 1, prev, ⟨c', h, h2⟩, hx, hp, hf => by
    simp only [List.mem_cons, not_or] at hx
    unfold walk
    rw [h]
    simp only [hp, if_false]
    exact walk_some h2 hx.2 (by simpa using fun e => hx.1 e.symm) (by simp only [List.length_cons] at hf; omega)

/-- the record after this one, and the first one -/
def Steps (f : Option Row → Option (Option Row)) (all : List Row) : Prop :=
  f none = some all.head? ∧ ∀ (i : Nat) (r : Row), all[i]? = some r → f (some r) = some all[i + 1]?

theorem walk_steps {ix : Idx} {l : List Row} {c : Cursor} (h : Runs ix c l) (hn : l.Nodup) (hl : l.length ≤ rowCount ix) :
    Steps (fun last => walk ix last (rowCount ix + 1) none c) l := by
  refine ⟨walk_none h (by omega), fun i r hi => ?_⟩
  obtain ⟨a, b, e⟩ := List.append_of_mem (List.mem_of_getElem? hi)
  have hia := split_index hn e hi
  have hra : r ∉ a := by
    rw [e] at hn
    intro hc
    have := (List.nodup_append.1 hn).2.2 r hc r (by simp)
    exact this rfl
  show walk ix (some r) (rowCount ix + 1) none c = _
  rw [e] at h hl
  simp only [List.length_append, List.length_cons] at hl
  rw [walk_some h hra (by simp) (by omega), e, hia]
  congr 1
  rw [List.getElem?_append_right (by omega)]
  have : a.length + 1 - a.length = 1 := by omega
  rw [this]
  cases b <;> rfl

theorem scan_steps {l : List Row} (hn : l.Nodup) (p : Row → Bool) :
    Steps (fun last => some ((match last with
      | none => l
      | some r => (l.dropWhile (· ≠ r)).drop 1).find? p)) (l.filter p) := by
  refine ⟨by simp [List.head?_filter], fun i r hi => ?_⟩
  have hm := List.mem_filter.1 (List.mem_of_getElem? hi)
  obtain ⟨a, b, e⟩ := List.append_of_mem hm.1
  have hra : r ∉ a := by
    rw [e] at hn
    intro hc
    exact (List.nodup_append.1 hn).2.2 r hc r (by simp) rfl
  have e2 : l.filter p = a.filter p ++ r :: b.filter p := by
    rw [e, List.filter_append, List.filter_cons_of_pos hm.2]
  have hia := split_index (hn.filter p) e2 hi
  simp only []
  rw [e2, hia, e, dropWhile_split hra, List.getElem?_append_right (by omega)]
  have : (a.filter p).length + 1 - (a.filter p).length = 1 := by omega
  rw [this]
  simp [← List.head?_filter, List.head?_eq_getElem?]

theorem plainIndex_spec {d : Db} {c : Nat} {ix : Idx} (h : d.plainIndex c = some ix) : ∃ x ∈ d.idxs c, x.kind = .ttree ix ∧ x.tmpl = none := by
  unfold Db.plainIndex at h
  split at h
  · obtain ⟨x, hx, h2⟩ := List.exists_of_findSome?_eq_some h
    refine ⟨x, hx, ?_⟩
    split at h2
    · rename_i e1 e2
      cases h2
      exact ⟨e1, e2⟩
    · cases h2
  · cases h

/-- wg_find_record with NULL gives the first record that satisfies the condition, and with one of these
the next one, and NULL after the last: each of them comes once. -/
theorem C54_find_record_partial {d : Db} (h : Right d) {c : Nat} {cond : Cond} {v : Word} (hv : d.cmp v d.ill = .gt) (hc : cond ≠ .other) :
    ∃ all : List Row, all.Nodup ∧ (∀ r, r ∈ all ↔ r ∈ d.recs ∧ Holds d ⟨c, cond, v⟩ r) ∧
      d.findRecord c cond v none = some all.head? ∧
      ∀ (i : Nat) (r : Row), all[i]? = some r → d.findRecord c cond v (some r) = some all[i + 1]? := by
  haveI := h.order
  have hone : ∀ r, d.check [⟨c, cond, v⟩] r = true ↔ Holds d ⟨c, cond, v⟩ r := by
    intro r
    rw [check_iff]
    simp
  have hscan : (cond = .ne ∨ d.plainIndex c = none) → ∃ all : List Row, all.Nodup ∧ (∀ r, r ∈ all ↔ r ∈ d.recs ∧ Holds d ⟨c, cond, v⟩ r) ∧
      Steps (d.findRecord c cond v) all := by
    intro hs
    refine ⟨d.recs.filter (d.check [⟨c, cond, v⟩]), h.once.filter _, fun r => by rw [List.mem_filter, hone], ?_⟩
    have e : d.findRecord c cond v = fun last => some ((match last with
        | none => d.recs
        | some r => (d.recs.dropWhile (· ≠ r)).drop 1).find? (d.check [⟨c, cond, v⟩])) := by
      funext last
      unfold Db.findRecord
      rcases hs with rfl | hs
      · rfl
      · rw [hs]
        cases cond <;> rfl
    rw [e]
    exact scan_steps h.once _
  haveI : TransCmp (d.env c).cmp := h.order
  have hvi : v ≠ (d.env c).ill := ne_ill (E := d.env c) hv
  have hidx : ∀ ix, d.plainIndex c = some ix → ∀ (lo hi : Word) (loInc hiInc : Bool), (lo = d.ill ∨ lo = v) → (hi = d.ill ∨ hi = v) →
      (∀ r, lower (d.env c) lo loInc r = true ∨ upper (d.env c) hi hiInc r = true) →
      (∀ r, (lower (d.env c) lo loInc r = true ∧ upper (d.env c) hi hiInc r = true) ↔ cond.test (d.cmp ((d.env c).key r) v) = true) →
      (∀ last, d.findRecord c cond v last = match findBounds (d.env c) ix lo hi loInc hiInc with
        | none => none
        | some none => some none
        | some (some cur) => walk ix last (rowCount ix + 1) none cur) →
      ∃ all : List Row, all.Nodup ∧ (∀ r, r ∈ all ↔ r ∈ d.recs ∧ Holds d ⟨c, cond, v⟩ r) ∧ Steps (d.findRecord c cond v) all := by
    intro ix hp lo hi loInc hiInc hlo hhi hpr hiff hfr
    obtain ⟨x, hx, hk, ht⟩ := plainIndex_spec hp
    obtain ⟨i1, i2, _, i4⟩ := h.index hx hk
    rw [ht] at i4
    obtain ⟨cur, f1, f2⟩ := findBounds_spec (h.envOk c) i1 (lo := lo) (hi := hi) (loInc := loInc) (hiInc := hiInc)
      (hlo.imp id (fun e => by rw [e]; exact hv)) (hhi.imp id (fun e => by rw [e]; exact hv)) (fun r _ => hpr r)
    refine ⟨ix.tree.rows.filter fun r => lower (d.env c) lo loInc r && upper (d.env c) hi hiInc r, i2.filter _, fun r => ?_, ?_⟩
    · rw [List.mem_filter, i4, Bool.and_eq_true, hiff, holds_iff]
      constructor
      · rintro ⟨⟨h1, h2, _⟩, h3⟩
        exact ⟨h1, _, key_get h2, h3⟩
      · rintro ⟨h1, w, h2, h3⟩
        rw [← key_eq h2] at h3
        exact ⟨⟨h1, (List.getElem?_eq_some_iff.1 h2).1, trivial⟩, h3⟩
    · have e : d.findRecord c cond v = fun last => walk ix last (rowCount ix + 1) none cur := by
        funext last
        rw [hfr, f1]
      rw [e]
      exact walk_steps f2 (i2.filter _) (by rw [rowCount_eq]; exact List.length_filter_le _ _)
  suffices ∃ all : List Row, all.Nodup ∧ (∀ r, r ∈ all ↔ r ∈ d.recs ∧ Holds d ⟨c, cond, v⟩ r) ∧ Steps (d.findRecord c cond v) all by
    obtain ⟨all, a1, a2, a3, a4⟩ := this
    exact ⟨all, a1, a2, a3, a4⟩
  cases hp : d.plainIndex c with
  | none => exact hscan (Or.inr hp)
  | some ix =>
    have hl0 : ∀ inc r, lower (d.env c) d.ill inc r = true := fun inc r => by simp [lower, Db.env]
    have hu0 : ∀ inc r, upper (d.env c) d.ill inc r = true := fun inc r => by simp [upper, Db.env]
    have hl1 : ∀ inc r, lower (d.env c) v inc r = if inc then decide (d.cmp ((d.env c).key r) v ≠ .lt) else decide (d.cmp ((d.env c).key r) v = .gt) :=
      fun inc r => by unfold lower; rw [if_neg hvi]; cases inc <;> rfl
    have hu1 : ∀ inc r, upper (d.env c) v inc r = if inc then decide (d.cmp ((d.env c).key r) v ≠ .gt) else decide (d.cmp ((d.env c).key r) v = .lt) :=
      fun inc r => by unfold upper; rw [if_neg hvi]; cases inc <;> rfl
    cases cond with
    | other => exact absurd rfl hc
    | ne => exact hscan (Or.inl rfl)
    | eq =>
      refine hidx ix hp v v true true (Or.inr rfl) (Or.inr rfl) (fun r => ?_) (fun r => ?_) (fun last => by unfold Db.findRecord; rw [hp]; rfl)
      · rw [hl1, hu1]; cases d.cmp ((d.env c).key r) v <;> simp
      · rw [hl1, hu1]; cases d.cmp ((d.env c).key r) v <;> simp [Cond.test]
    | lt =>
      refine hidx ix hp d.ill v true false (Or.inl rfl) (Or.inr rfl) (fun r => Or.inl (hl0 _ r)) (fun r => ?_) (fun last => by unfold Db.findRecord; rw [hp]; rfl)
      rw [hl0, hu1]; cases d.cmp ((d.env c).key r) v <;> simp [Cond.test]
    | gt =>
      refine hidx ix hp v d.ill false true (Or.inr rfl) (Or.inl rfl) (fun r => Or.inr (hu0 _ r)) (fun r => ?_) (fun last => by unfold Db.findRecord; rw [hp]; rfl)
      rw [hl1, hu0]; cases d.cmp ((d.env c).key r) v <;> simp [Cond.test]
    | le =>
      refine hidx ix hp d.ill v true true (Or.inl rfl) (Or.inr rfl) (fun r => Or.inl (hl0 _ r)) (fun r => ?_) (fun last => by unfold Db.findRecord; rw [hp]; rfl)
      rw [hl0, hu1]; cases d.cmp ((d.env c).key r) v <;> simp [Cond.test]
    | ge =>
      refine hidx ix hp v d.ill true true (Or.inr rfl) (Or.inl rfl) (fun r => Or.inr (hu0 _ r)) (fun r => ?_) (fun last => by unfold Db.findRecord; rw [hp]; rfl)
      rw [hl1, hu0]; cases d.cmp ((d.env c).key r) v <;> simp [Cond.test]

/-! ### Examples and witnesses -/

/-- forty records: 1-3 have 1 in the first column, 4-29 have 5, the others 9; the second column is the
number modulo 3; -1 is no value, 1000 is a variable -/
def demoFields (r : Row) : List Word := if 1 ≤ r ∧ r ≤ 40 then [if r ≤ 3 then 1 else if r ≤ 29 then 5 else 9, (r % 3 : Nat)] else []

def demoRecs : List Row := (List.range 40).map (· + 1)

/-- the order of words, and the column of the index -/
def demoEnv (c : Nat) : Env := ⟨fun r => (demoFields r).getD c 0, fun a b => compare (α := Int) a b, -1⟩

def demoBuild : Option Idx := insertAll (demoEnv 0) (empty (demoEnv 0) 100) ((demoRecs.map fun r => (r, r)).map fun x => (x.1, some x.2))

/-- the records with a T-tree on the first column -/
def demo : Db := ⟨fun a b => compare (α := Int) a b, fun w => w = 1000, -1, demoRecs, demoFields,
  fun c => if c = 0 then [⟨.ttree (demoBuild.getD (empty (demoEnv 0) 100)), none⟩] else []⟩

/-- the same without an index -/
def demoPlain : Db := { demo with idxs := fun _ => [] }

/-- the first rows a query gives -/
def firsts (d : Db) (n : Nat) (matchrec : List Word) (args : List Arg) (limit : Nat) : Option (List (Option Row)) :=
  match d.makeQuery matchrec args limit with
  | some (some q) => calls d n q
  | _ => none

theorem int_gt {a b : Int} (h : b < a) : compare a b = .gt := by
  rw [Compare.compare_int, if_neg (by omega)]
  simp [Compare.gtOrLt]
  omega

theorem demo_vals (r : Row) : ∀ w ∈ demoFields r, compare (α := Int) w (-1) = .gt := by
  intro w hw
  refine int_gt ?_
  unfold demoFields at hw
  split at hw
  · simp only [List.mem_cons, List.not_mem_nil, or_false] at hw
    rcases hw with rfl | rfl
    · split
      · decide
      · split <;> decide
    · show (-1 : Int) < ((r % 3 : Nat) : Int)
      omega
  · cases hw

theorem demoEnv_ok : (demoEnv 0).Ok := by
  refine ⟨?_, fun r => ?_⟩
  · show TransCmp (fun a b : Int => compare a b)
    infer_instance
  · show compare (α := Int) ((demoFields r).getD 0 0) (-1) = .gt
    rw [List.getD_eq_getElem?_getD]
    cases hg : (demoFields r)[0]? with
    | none => exact int_gt (by decide)
    | some w => exact demo_vals r w (List.mem_of_getElem? hg)

theorem demo_len {r : Row} (h : r ∈ demoRecs) : 0 < (demoFields r).length := by
  simp only [demoRecs, List.mem_map, List.mem_range] at h
  obtain ⟨i, hi, rfl⟩ := h
  have hr : 1 ≤ i + 1 ∧ i + 1 ≤ 40 := ⟨Nat.le_add_left 1 i, Nat.succ_le_of_lt hi⟩
  unfold demoFields
  rw [if_pos hr]
  simp

theorem demo_right : Right demo where
  order := by
    show TransCmp (fun a b : Int => compare a b)
    infer_instance
  vals := demo_vals
  null := int_gt (by decide)
  once := by decide +kernel
  nonzero := by decide +kernel
  trimmed := by
    intro c x hx t ht
    simp only [demo] at hx
    split at hx
    · cases List.mem_singleton.1 hx
      cases ht
    · cases hx
  current := by
    intro c x hx ix hk
    simp only [demo] at hx
    split at hx
    · rename_i hc
      subst hc
      cases List.mem_singleton.1 hx
      obtain ⟨ix', e1, e2⟩ := TT.C53_create_index demoEnv_ok 100 (demoRecs.map fun r => (r, r)) (by decide +kernel)
      have e3 : demoBuild = some ix' := e1
      simp only [e3, Option.getD_some, Kind.ttree.injEq] at hk
      subst hk
      refine ⟨_, e2, by decide +kernel, fun r => ?_⟩
      have e4 : (((demoRecs.map fun r => (r, r)).map Prod.fst).reverse : List Row) = demoRecs.reverse := by decide +kernel
      rw [e4, List.mem_reverse]
      exact ⟨fun h => ⟨h, demo_len h, trivial⟩, fun h => h.1⟩
    · cases hx

theorem demoPlain_right : Right demoPlain :=
  ⟨demo_right.order, demo_right.vals, demo_right.null, demo_right.once, demo_right.nonzero,
    fun _ _ h => (nomatch h), fun _ _ h => (nomatch h)⟩

/-- a query that meets the conditions of the theorem, with its answer -/
example : Valued demo [1000, 2] [⟨0, .ge, 5⟩, ⟨0, .ne, 9⟩] ∧ ¬ Clash demo [⟨0, .ge, 5⟩, ⟨0, .ne, 9⟩] ∧
    firsts demo 5 [1000, 2] [⟨0, .ge, 5⟩, ⟨0, .ne, 9⟩] 3 = some [some 8, some 5, some 11, none, none] := by
  refine ⟨⟨?_, ?_⟩, ?_, by decide +kernel⟩
  · intro a ha
    simp only [List.mem_cons, List.not_mem_nil, or_false] at ha
    rcases ha with rfl | rfl <;> exact int_gt (by decide)
  · intro w hw _
    simp only [List.mem_cons, List.not_mem_nil, or_false] at hw
    rcases hw with rfl | rfl <;> exact int_gt (by decide)
  · rintro ⟨a, ha, b, hb, _, h1, _⟩
    simp only [List.mem_cons, List.not_mem_nil, or_false] at ha
    rcases ha with rfl | rfl <;> cases h1

example : ∃ q all, demo.makeQuery [] [⟨0, .eq, 5⟩] 0 = some (some q) ∧ (∀ r, r ∈ all ↔ r ∈ demo.recs ∧ Matches demo [] [⟨0, .eq, 5⟩] r) ∧
    Returns demo q (limited 0 all) := by
  obtain ⟨q, all, h1, _, h2, h3, _⟩ := C54_query_partial demo_right (matchrec := []) (args := [⟨0, .eq, 5⟩])
    ⟨fun a ha => by cases List.mem_singleton.1 ha; exact int_gt (by decide), fun w hw => (nomatch hw)⟩
    (by rintro ⟨a, ha, _, _, _, h, _⟩; cases List.mem_singleton.1 ha; cases h) 0
  exact ⟨q, all, h1, h2, h3⟩

/-- the records with 1 in the first column, one after another -/
example : demo.cmp 1 demo.ill = .gt ∧ demo.findRecord 0 .eq 1 none = some (some 3) ∧ demo.findRecord 0 .eq 1 (some 3) = some (some 2) ∧
    demo.findRecord 0 .eq 1 (some 2) = some (some 1) ∧ demo.findRecord 0 .eq 1 (some 1) = some none := by
  refine ⟨int_gt (by decide), ?_⟩
  decide +kernel

/-- "Greater than 5 and less than 5" gives the records with 9 when there is an index, and nothing
otherwise: the condition on clashes is needed. -/
theorem C54_clash_wrong : Right demo ∧ Valued demo [] [⟨0, .gt, 5⟩, ⟨0, .lt, 5⟩] ∧
    firsts demo 2 [] [⟨0, .gt, 5⟩, ⟨0, .lt, 5⟩] 0 = some [some 37, some 36] ∧
    (∀ r, ¬ Matches demo [] [⟨0, .gt, 5⟩, ⟨0, .lt, 5⟩] r) ∧
    firsts demoPlain 2 [] [⟨0, .gt, 5⟩, ⟨0, .lt, 5⟩] 0 = some [none, none] := by
  refine ⟨demo_right, ⟨?_, fun w hw => (nomatch hw)⟩, by decide +kernel, ?_, by decide +kernel⟩
  · intro a ha
    simp only [List.mem_cons, List.not_mem_nil, or_false] at ha
    rcases ha with rfl | rfl <;> exact int_gt (by decide)
  · rintro r ⟨h, _⟩
    obtain ⟨w, h1, h2⟩ := h ⟨0, .gt, 5⟩ (by simp)
    obtain ⟨w', h3, h4⟩ := h ⟨0, .lt, 5⟩ (by simp)
    rw [h1] at h3
    cases h3
    simp only at h2 h4
    rw [h2] at h4
    cases h4

/-- WG_ILLEGAL as the value of a condition: with an index all records are given, otherwise none. -/
theorem C54_illegal_wrong : firsts demo 2 [] [⟨0, .eq, -1⟩] 0 = some [some 3, some 2] ∧
    firsts demoPlain 2 [] [⟨0, .eq, -1⟩] 0 = some [none, none] ∧ ¬ Matches demo [] [⟨0, .eq, -1⟩] 3 := by
  refine ⟨by decide +kernel, by decide +kernel, ?_⟩
  rw [matches_iff]
  decide +kernel

/-- When the bounds are seen to be in the wrong order, the number of rows is never set. -/
theorem C54_count_unset : Right demo ∧ (demo.makeQuery [] [⟨0, .gt, 7⟩, ⟨0, .lt, 3⟩] 0).map (·.map Query.count) = some (some none) :=
  ⟨demo_right, by decide +kernel⟩

end Gkc.Props.Qu
