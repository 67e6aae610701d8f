import Verif.IndexHooks
import Verif.Props.TTree
/-
C55: what keeps the indexes of the database current, and what does not.
-/
namespace Gkc.Props.Ih
open Gkc.Hooks
open Gkc.Compare (Word)
open Gkc.TTree (Row)

/-! ### What should be in an index -/

/-- a record with these fields belongs in the index: it has the column, and every field the template
fixes is there and equal -/
def Belongs (C : Cfg) (h : Hdr) (fs : List Word) : Prop :=
  h.col < fs.length ∧ ∀ t, h.tmpl = some t → t.length ≤ fs.length ∧
    ∀ (i : Nat) (w : Word), t[i]? = some w → C.isVar w = true ∨ ∃ x, fs[i]? = some x ∧ C.cmp w x = .eq

/-- the record should be in the index, with this key -/
def Wanted (C : Cfg) (s : St) (h : Hdr) (r : Row) (k : Word) : Prop :=
  r ∈ s.live ∧ Belongs C h (s.fields r) ∧ (s.fields r)[h.col]? = some k

/-- the index is current: the records that should be in it are there, once, and nothing else is -/
def Current (C : Cfg) (s : St) (h : Hdr) : Prop :=
  ∀ r k, (Wanted C s h r k → h.rows.count (r, k) = 1) ∧ (¬ Wanted C s h r k → h.rows.count (r, k) = 0)

/-- an index that can be created -/
def Legal (C : Cfg) (h : Hdr) : Prop :=
  h.col ≤ 127 ∧ ∀ t, h.tmpl = some t → t.length ≤ 128 ∧ (∃ (i : Nat) (w : Word), t[i]? = some w ∧ C.isVar w = false) ∧
    ∀ w, t[h.col]? = some w → C.isVar w = true

/-- A call that does no harm: a new record of NULLs belongs in no index (or, if it is made by the
functions of dbschema.c, in none with a template), and a field is stored only if this changes for no
index whether the record belongs in it and with which key; and a record in an index with a template is deleted
only if the T-tree has no bounding node for its key when the record is no longer in it. -/
def Safe (C : Cfg) (s : St) : Op → Prop
  | .create r len => r ∉ s.live → ∀ h ∈ s.idxs, ¬ Belongs C h (List.replicate len 0)
  | .schema r len => r ∉ s.live → ∀ h ∈ s.idxs, h.tmpl ≠ none → ¬ Belongs C h (List.replicate len 0)
  | .setNew r i v => r ∈ s.live → ∀ h ∈ s.idxs, ∀ k,
      (Belongs C h ((s.fields r).set i v) ∧ ((s.fields r).set i v)[h.col]? = some k) ↔
      (Belongs C h (s.fields r) ∧ (s.fields r)[h.col]? = some k)
  | .delete r bound => r ∈ s.live → ∀ (n : Nat) (h : Hdr), s.idxs[n]? = some h → h.tmpl ≠ none →
      Belongs C h (s.fields r) → bound n = false
  | _ => True

/-- all calls of a program do no harm -/
def SafeAll (C : Cfg) (ops : List Op) : Prop :=
  ∀ pre op post, ops = pre ++ op :: post → Safe C (C.run pre) op

/-! ### Proof -/

theorem sameFields_iff (C : Cfg) : ∀ (t fs : List Word), t.length ≤ fs.length →
    (C.sameFields t fs = true ↔
      ∀ (i : Nat) (w : Word), t[i]? = some w → C.isVar w = true ∨ ∃ x, fs[i]? = some x ∧ C.cmp w x = .eq)
  | [], fs, _ => by simp [Cfg.sameFields]
  | w :: t, [], h => by simp at h
  | w :: t, f :: fs, h => by
    have ih := sameFields_iff C t fs (by simpa using h)
    simp only [Cfg.sameFields, Bool.and_eq_true, Bool.or_eq_true, decide_eq_true_eq, ih]
    constructor
    · rintro ⟨h1, h2⟩ i x hx
      cases i with
      | zero =>
        simp at hx; subst hx
        cases h1 with
        | inl h1 => exact .inl h1
        | inr h1 => exact .inr ⟨f, by simp, h1⟩
      | succ i => simpa using h2 i x (by simpa using hx)
    · intro h
      refine ⟨?_, fun i x hx => by simpa using h (i + 1) x (by simpa using hx)⟩
      cases h 0 w (by simp) with
      | inl h1 => exact .inl h1
      | inr h1 =>
        obtain ⟨x, hx, h2⟩ := h1
        simp at hx; subst hx; exact .inr h2

theorem matches_iff (C : Cfg) (h : Hdr) (fs : List Word) :
    (h.col < fs.length ∧ C.matches_ h fs = true) ↔ Belongs C h fs := by
  unfold Belongs Cfg.matches_ Cfg.matchTemplate
  cases ht : h.tmpl with
  | none => simp
  | some t =>
    by_cases hl : t.length > fs.length
    · have hl' : ¬ t.length ≤ fs.length := Nat.not_le_of_lt hl
      simp [hl, hl']
    · have hl' : t.length ≤ fs.length := Nat.le_of_not_lt hl
      simp [hl, hl', sameFields_iff C t fs hl']

theorem firstFixed_some (C : Cfg) : ∀ (t : List Word) (j i : Nat), C.firstFixed t j = some i →
    j ≤ i ∧ ∃ w, t[i - j]? = some w ∧ C.isVar w = false
  | [], _, _, h => by simp [Cfg.firstFixed] at h
  | w :: t, j, i, h => by
    unfold Cfg.firstFixed at h
    split at h
    · obtain ⟨h1, x, h2, h3⟩ := firstFixed_some C t (j + 1) i h
      refine ⟨Nat.le_of_succ_le h1, x, ?_, h3⟩
      have e : i - j = (i - (j + 1)) + 1 := by omega
      rw [e]; simpa using h2
    · rename_i hv
      simp at h; subst h
      exact ⟨Nat.le_refl _, w, by simp, by simpa using hv⟩

theorem firstFixed_exists (C : Cfg) : ∀ (t : List Word) (j : Nat), (∃ (i : Nat) (w : Word), t[i]? = some w ∧ C.isVar w = false) →
    ∃ i, C.firstFixed t j = some i
  | [], _, h => by obtain ⟨i, w, h, _⟩ := h; simp at h
  | w :: t, j, h => by
    unfold Cfg.firstFixed
    split
    · rename_i hv
      refine firstFixed_exists C t (j + 1) ?_
      obtain ⟨i, x, h1, h2⟩ := h
      cases i with
      | zero => simp at h1; subst h1; rw [hv] at h2; cases h2
      | succ i => exact ⟨i, x, by simpa using h1, h2⟩
    · exact ⟨j, rfl⟩

/-- how often the rounds for the columns change the index -/
def hits (C : Cfg) (fs : List Word) (len : Nat) (h : Hdr) (i : Nat) : Nat :=
  (if h.col = i ∧ C.matches_ h fs then 1 else 0) + (if C.fixedAt h i ∧ C.firstTime h fs len i then 1 else 0)

/-- a row is put in some times -/
def addK (e : Row × Word) (k : Nat) (h : Hdr) : Hdr := { h with rows := List.replicate k e ++ h.rows }

/-- a row is removed some times -/
def eraseN (e : Row × Word) : Nat → List (Row × Word) → List (Row × Word)
  | 0, l => l
  | k + 1, l => eraseN e k (l.erase e)

def delK (e : Row × Word) (k : Nat) (h : Hdr) : Hdr := { h with rows := eraseN e k h.rows }

theorem eraseN_add (e : Row × Word) : ∀ (j k : Nat) (l), eraseN e k (eraseN e j l) = eraseN e (j + k) l
  | 0, k, l => by simp [eraseN]
  | j + 1, k, l => by
    have : j + 1 + k = (j + k) + 1 := by omega
    rw [this]; exact eraseN_add e j k _

theorem count_eraseN_self (e : Row × Word) : ∀ (k : Nat) (l), (eraseN e k l).count e = l.count e - k
  | 0, l => rfl
  | k + 1, l => by
    rw [eraseN, count_eraseN_self e k, List.count_erase_self]; omega

theorem count_eraseN_ne (e x : Row × Word) (hx : x ≠ e) : ∀ (k : Nat) (l), (eraseN e k l).count x = l.count x
  | 0, l => rfl
  | k + 1, l => by
    rw [eraseN, count_eraseN_ne e x hx k, List.count_erase_of_ne hx]

theorem addAt_eq (C : Cfg) (fs len r h i) : C.addAt fs len r h i = addK (r, keyOf h fs) (hits C fs len h i) h := by
  unfold Cfg.addAt hits addK
  by_cases h1 : h.col = i ∧ C.matches_ h fs
  · rw [if_pos h1, if_pos h1]
    have e1 : C.fixedAt { h with rows := (r, keyOf h fs) :: h.rows } i = C.fixedAt h i := rfl
    have e2 : C.firstTime { h with rows := (r, keyOf h fs) :: h.rows } fs len i = C.firstTime h fs len i := rfl
    have e3 : keyOf { h with rows := (r, keyOf h fs) :: h.rows } fs = keyOf h fs := rfl
    simp only []
    rw [e1, e2, e3]
    split <;> simp [List.replicate]
  · simp only [h1, if_false]
    split <;> simp [List.replicate]

theorem foldl_map_comm {α β : Type} (F : α → β → α) : ∀ (l : List β) (xs : List α),
    l.foldl (fun xs i => xs.map fun x => F x i) xs = xs.map fun x => l.foldl F x
  | [], xs => by simp
  | b :: l, xs => by
    rw [List.foldl_cons, foldl_map_comm F l]
    simp [List.map_map, Function.comp_def]

/-- the number of hits before column `n` -/
def total (C : Cfg) (fs : List Word) (len : Nat) (h : Hdr) : Nat → Nat
  | 0 => 0
  | n + 1 => total C fs len h n + hits C fs len h n

theorem fold_add (C : Cfg) (fs len r h) : ∀ n, (List.range n).foldl (C.addAt fs len r) h
    = addK (r, keyOf h fs) (total C fs len h n) h
  | 0 => by simp [total, addK]
  | n + 1 => by
    rw [List.range_succ, List.foldl_append, fold_add C fs len r h n]
    show C.addAt fs len r _ n = _
    rw [addAt_eq]
    have e2 : hits C fs len (addK (r, keyOf h fs) (total C fs len h n) h) n = hits C fs len h n := rfl
    have e3 : keyOf (addK (r, keyOf h fs) (total C fs len h n) h) fs = keyOf h fs := rfl
    rw [e2, e3, total]
    simp only [addK, Hdr.mk.injEq, true_and]
    rw [← List.append_assoc, List.replicate_append_replicate, Nat.add_comm]

theorem total_split (C : Cfg) (fs len) (h : Hdr) (p q : Nat) (P Q : Prop) [Decidable P] [Decidable Q]
    (hh : ∀ i, hits C fs len h i = (if p = i ∧ P then 1 else 0) + (if q = i ∧ Q then 1 else 0)) :
    ∀ n, total C fs len h n = (if p < n ∧ P then 1 else 0) + (if q < n ∧ Q then 1 else 0)
  | 0 => by simp [total]
  | n + 1 => by
    rw [total, total_split C fs len h p q P Q hh n, hh n]
    have one : ∀ (a : Nat) (X : Prop) [Decidable X],
        (if a < n + 1 ∧ X then 1 else 0) = (if a < n ∧ X then 1 else 0) + (if a = n ∧ X then 1 else 0) := by
      intro a X _
      by_cases hX : X
      · simp only [hX, and_true]
        by_cases h1 : a < n
        · have : a < n + 1 := by omega
          have : a ≠ n := by omega
          simp [*]
        · by_cases h2 : a = n
          · simp [h2]
          · have : ¬ a < n + 1 := by omega
            simp [*]
      · simp [hX]
    rw [one p P, one q Q]; omega

/-- how often a record is put in an index it belongs in -/
def copies (h : Hdr) : Nat := if h.tmpl = none then 1 else 2

theorem total_eq (C : Cfg) (fs : List Word) (h : Hdr) (hl : Legal C h) (len : Nat)
    (hlen : len = if fs.length > 127 then tableSize else fs.length) :
    (Belongs C h fs → total C fs len h len = copies h) ∧ (¬ Belongs C h fs → total C fs len h len = 0) := by
  obtain ⟨hc, ht⟩ := hl
  have hcl : h.col < len ↔ h.col < fs.length := by
    rw [hlen]; unfold tableSize; split <;> omega
  rw [← matches_iff]
  cases htm : h.tmpl with
  | none =>
    have := total_split C fs len h h.col 0 (C.matches_ h fs = true) False
      (fun i => by simp [hits, Cfg.fixedAt, htm]) len
    simp only [this, hcl]
    simp only [and_false, if_false, copies, htm, if_true]
    constructor
    · rintro h1; simp [h1]
    · intro h1; simp only [h1, if_false]
  | some t =>
    obtain ⟨h128, hfix, _⟩ := ht t htm
    obtain ⟨q, hq⟩ := firstFixed_exists C t 0 hfix
    obtain ⟨_, w, hw, hwv⟩ := firstFixed_some C t 0 q hq
    simp only [Nat.sub_zero] at hw
    have htl : t.length ≤ len ↔ t.length ≤ fs.length := by
      rw [hlen]; unfold tableSize; split <;> omega
    have hqt : q < t.length := by
      rcases Nat.lt_or_ge q t.length with h | h
      · exact h
      · rw [List.getElem?_eq_none h] at hw; cases hw
    have hm : C.matches_ h fs = true ↔ (t.length ≤ fs.length ∧ C.sameFields t fs = true) := by
      simp only [Cfg.matches_, htm, Cfg.matchTemplate]
      by_cases hh : t.length > fs.length
      · have hh' : ¬ t.length ≤ fs.length := Nat.not_le_of_lt hh
        simp [hh, hh']
      · simp [hh, Nat.le_of_not_lt hh]
    have := total_split C fs len h h.col q (C.matches_ h fs = true) (C.matches_ h fs = true ∧ h.col < fs.length)
      (fun i => by
        unfold hits
        congr 1
        have : (C.fixedAt h i = true ∧ C.firstTime h fs len i = true) ↔
            (q = i ∧ C.matches_ h fs = true ∧ h.col < fs.length) := by
          rw [hm, ← hcl, ← htl]
          simp only [Cfg.firstTime, htm, hq, Bool.and_eq_true, Bool.not_eq_true', decide_eq_false_iff_not,
            decide_eq_true_eq, Option.some.injEq]
          constructor
          · rintro ⟨_, ⟨⟨h1, h2⟩, h3⟩, h4⟩
            exact ⟨h3, ⟨Nat.le_of_not_lt h1, h2⟩, h4⟩
          · rintro ⟨h3, ⟨h1, h2⟩, h4⟩
            refine ⟨?_, ⟨⟨Nat.not_lt_of_le h1, h2⟩, h3⟩, h4⟩
            subst h3
            simp [Cfg.fixedAt, htm, hw, hwv]
        simp only [this]) len
    simp only [this, hcl]
    simp only [copies, htm]
    constructor
    · rintro ⟨h1, h2⟩
      have : q < len := Nat.lt_of_lt_of_le hqt (htl.2 (hm.1 h2).1)
      simp [h1, h2, this]
    · intro h1
      by_cases h2 : C.matches_ h fs = true
      · have : ¬ h.col < fs.length := fun h3 => h1 ⟨h3, h2⟩
        simp [this]
      · simp [h2]

theorem addRec_eq (C : Cfg) (idxs fs r) : C.addRec idxs fs r =
    idxs.map fun h => addK (r, keyOf h fs) (total C fs (if fs.length > 127 then tableSize else fs.length) h
      (if fs.length > 127 then tableSize else fs.length)) h := by
  unfold Cfg.addRec
  simp only []
  rw [foldl_map_comm]
  exact List.map_congr_left fun h _ => fold_add C fs _ r h _

theorem count_filter_range (p : Nat → Bool) (m n : Nat) : ((List.range m).filter p).count n = if n < m ∧ p n = true then 1 else 0 := by
  induction m with
  | zero => simp
  | succ m ih =>
    rw [List.range_succ, List.filter_append, List.count_append, ih]
    by_cases hn : n = m
    · subst hn
      cases hp : p n <;> simp [hp, List.filter_cons]
    · have h1 : (List.filter p [m]).count n = 0 := by
        refine List.count_eq_zero.2 fun h => ?_
        have := (List.mem_filter.1 h).1
        simp at this; exact hn this
      have h2 : n < m + 1 ↔ n < m := by omega
      simp [h1, h2]

/-- how often an index is asked to remove the row -/
theorem count_targets (C : Cfg) (idxs : List Hdr) (fs : List Word) (len n : Nat) (h : Hdr) (hn : idxs[n]? = some h) :
    ∀ m, ((List.range m).flatMap (C.targets idxs fs len)).count n = total C fs len h m
  | 0 => by simp [total]
  | m + 1 => by
    have hlt : n < idxs.length := by
      rcases Nat.lt_or_ge n idxs.length with h | h
      · exact h
      · rw [List.getElem?_eq_none h] at hn; cases hn
    rw [List.range_succ, List.flatMap_append, List.count_append, count_targets C idxs fs len n h hn m, total]
    congr 1
    simp only [List.flatMap_cons, List.flatMap_nil, List.append_nil, Cfg.targets, List.count_append, count_filter_range, hn,
      hlt, true_and, hits, Bool.and_eq_true, decide_eq_true_eq]

theorem removeAll_spec (bound : Nat → Bool) (fs : List Word) (r : Row) : ∀ (ns : List Nat) (idxs : List Hdr),
    ((removeAll bound fs r ns idxs).1.length = idxs.length ∧ ∀ (n : Nat) (h : Hdr), idxs[n]? = some h →
      ∃ rows, (removeAll bound fs r ns idxs).1[n]? = some { h with rows := rows }) ∧
    ((removeAll bound fs r ns idxs).2 = true → ∀ (n : Nat) (h : Hdr), idxs[n]? = some h →
      (removeAll bound fs r ns idxs).1[n]? = some (delK (r, keyOf h fs) (ns.count n) h) ∧
      (bound n = true → ns.count n ≤ h.rows.count (r, keyOf h fs))) ∧
    ((removeAll bound fs r ns idxs).2 = false → ∃ (n : Nat) (h h' : Hdr), idxs[n]? = some h ∧ bound n = true ∧
      h.rows.count (r, keyOf h fs) < ns.count n ∧ (removeAll bound fs r ns idxs).1[n]? = some h' ∧
      h'.col = h.col ∧ h'.tmpl = h.tmpl ∧ h'.rows.count (r, keyOf h fs) = 0)
  | [], idxs => by
    refine ⟨⟨rfl, fun n h hn => ⟨h.rows, hn⟩⟩, fun _ n h hn => ⟨by simpa [removeAll, delK, eraseN] using hn, fun _ => by simp⟩,
      fun h => by simp [removeAll] at h⟩
  | m :: ns, idxs => by
    cases hm : idxs[m]? with
    | none =>
      have e : removeAll bound fs r (m :: ns) idxs = removeAll bound fs r ns idxs := by
        rw [removeAll]; simp only [hm]
      rw [e]
      have ih := removeAll_spec bound fs r ns idxs
      have hne : ∀ (n : Nat) (h : Hdr), idxs[n]? = some h → (m :: ns).count n = ns.count n := by
        intro n h hn
        refine List.count_cons_of_ne fun e => ?_
        subst e; rw [hm] at hn; cases hn
      refine ⟨ih.1, fun ho n h hn => ?_, fun ho => ?_⟩
      · rw [hne n h hn]; exact ih.2.1 ho n h hn
      · obtain ⟨n, h, h', hn, hh⟩ := ih.2.2 ho
        exact ⟨n, h, h', hn, by rw [hne n h hn]; exact hh⟩
    | some g =>
      have hlt : m < idxs.length := by
        rcases Nat.lt_or_ge m idxs.length with h | h
        · exact h
        · rw [List.getElem?_eq_none h] at hm; cases hm
      by_cases hin : (r, keyOf g fs) ∈ g.rows
      · have e : removeAll bound fs r (m :: ns) idxs =
            removeAll bound fs r ns (idxs.set m { g with rows := g.rows.erase (r, keyOf g fs) }) := by
          rw [removeAll]; simp only [hm, hin, if_true]
        rw [e]
        have ih := removeAll_spec bound fs r ns (idxs.set m { g with rows := g.rows.erase (r, keyOf g fs) })
        have at_m : (idxs.set m { g with rows := g.rows.erase (r, keyOf g fs) })[m]? =
            some { g with rows := g.rows.erase (r, keyOf g fs) } := by simp [hlt]
        have at_n : ∀ n, n ≠ m → (idxs.set m { g with rows := g.rows.erase (r, keyOf g fs) })[n]? = idxs[n]? :=
          fun n hn => List.getElem?_set_ne fun e => hn e.symm
        have hpos : 1 ≤ g.rows.count (r, keyOf g fs) := List.count_pos_iff.2 hin
        refine ⟨⟨by rw [ih.1.1]; simp, fun n h hn => ?_⟩, fun ho n h hn => ?_, fun ho => ?_⟩
        · by_cases hnm : n = m
          · subst hnm
            rw [hm] at hn; cases hn
            obtain ⟨rows, hr⟩ := ih.1.2 n _ at_m
            exact ⟨rows, hr⟩
          · exact ih.1.2 n h (by rw [at_n n hnm]; exact hn)
        · by_cases hnm : n = m
          · subst hnm
            rw [hm] at hn; cases hn
            have := ih.2.1 ho n _ at_m
            have ek : keyOf { g with rows := g.rows.erase (r, keyOf g fs) } fs = keyOf g fs := rfl
            rw [ek] at this
            rw [List.count_cons_self]
            refine ⟨this.1, fun hb => ?_⟩
            have h2 := this.2 hb
            simp only [List.count_erase_self] at h2
            omega
          · have := ih.2.1 ho n h (by rw [at_n n hnm]; exact hn)
            rw [List.count_cons_of_ne fun e => hnm e.symm]
            exact this
        · obtain ⟨n, h, h', hn, hb, hc, hr⟩ := ih.2.2 ho
          by_cases hnm : n = m
          · subst hnm
            rw [at_m] at hn; cases hn
            refine ⟨n, g, h', hm, hb, ?_, hr⟩
            have ek : keyOf { g with rows := g.rows.erase (r, keyOf g fs) } fs = keyOf g fs := rfl
            rw [ek] at hc
            simp only [List.count_erase_self] at hc
            rw [List.count_cons_self]
            omega
          · rw [at_n n hnm] at hn
            exact ⟨n, h, h', hn, hb, by rw [List.count_cons_of_ne fun e => hnm e.symm]; exact hc, hr⟩
      · have hz : g.rows.count (r, keyOf g fs) = 0 := List.count_eq_zero.2 hin
        by_cases hb : bound m = true
        · have e : removeAll bound fs r (m :: ns) idxs = (idxs, false) := by
            rw [removeAll]; simp only [hm, hin, if_false, hb, if_true]
          rw [e]
          refine ⟨⟨rfl, fun n h hn => ⟨h.rows, hn⟩⟩, fun h => (nomatch h), fun _ => ?_⟩
          exact ⟨m, g, g, hm, hb, by rw [hz, List.count_cons_self]; exact Nat.succ_pos _, hm, rfl, rfl, hz⟩
        · have e : removeAll bound fs r (m :: ns) idxs = removeAll bound fs r ns idxs := by
            rw [removeAll]; simp only [hm, hin, if_false, hb]; rfl
          rw [e]
          have ih := removeAll_spec bound fs r ns idxs
          refine ⟨ih.1, fun ho n h hn => ?_, fun ho => ?_⟩
          · by_cases hnm : n = m
            · subst hnm
              rw [hm] at hn; cases hn
              refine ⟨?_, fun h => absurd h hb⟩
              rw [List.count_cons_self, (ih.2.1 ho n g hm).1]
              simp only [delK, eraseN, List.erase_of_not_mem hin]
            · rw [List.count_cons_of_ne fun e => hnm e.symm]
              exact ih.2.1 ho n h hn
          · obtain ⟨n, h, h', hn, hbn, hh⟩ := ih.2.2 ho
            have hnm : n ≠ m := fun e => hb (e ▸ hbn)
            exact ⟨n, h, h', hn, hbn, by rw [List.count_cons_of_ne fun e => hnm e.symm]; exact hh⟩

theorem delRec_spec (C : Cfg) (bound : Nat → Bool) (idxs : List Hdr) (fs : List Word) (r : Row)
    (hl : ∀ h ∈ idxs, Legal C h) :
    ((C.delRec bound idxs fs r).1.length = idxs.length ∧ ∀ (n : Nat) (h : Hdr), idxs[n]? = some h →
      ∃ rows, (C.delRec bound idxs fs r).1[n]? = some { h with rows := rows }) ∧
    ((C.delRec bound idxs fs r).2 = true → ∀ (n : Nat) (h : Hdr), idxs[n]? = some h →
      (Belongs C h fs → (C.delRec bound idxs fs r).1[n]? = some (delK (r, keyOf h fs) (copies h) h) ∧
        (bound n = true → copies h ≤ h.rows.count (r, keyOf h fs))) ∧
      (¬ Belongs C h fs → (C.delRec bound idxs fs r).1[n]? = some h)) ∧
    ((C.delRec bound idxs fs r).2 = false → ∃ (n : Nat) (h h' : Hdr), idxs[n]? = some h ∧ bound n = true ∧ Belongs C h fs ∧
      h.rows.count (r, keyOf h fs) < copies h ∧ (C.delRec bound idxs fs r).1[n]? = some h' ∧
      h'.col = h.col ∧ h'.tmpl = h.tmpl ∧ h'.rows.count (r, keyOf h fs) = 0) := by
  have sp := removeAll_spec bound fs r
    ((List.range (if fs.length > 127 then tableSize else fs.length)).flatMap
      (C.targets idxs fs (if fs.length > 127 then tableSize else fs.length))) idxs
  have ct : ∀ (n : Nat) (h : Hdr), idxs[n]? = some h → _ := fun n h hn =>
    count_targets C idxs fs (if fs.length > 127 then tableSize else fs.length) n h hn
      (if fs.length > 127 then tableSize else fs.length)
  have te : ∀ (n : Nat) (h : Hdr), idxs[n]? = some h → _ := fun n h hn =>
    total_eq C fs h (hl h (List.mem_of_getElem? hn)) _ rfl
  have e : C.delRec bound idxs fs r = removeAll bound fs r
    ((List.range (if fs.length > 127 then tableSize else fs.length)).flatMap
      (C.targets idxs fs (if fs.length > 127 then tableSize else fs.length))) idxs := rfl
  rw [e]
  refine ⟨sp.1, fun ho n h hn => ?_, fun ho => ?_⟩
  · have h1 := sp.2.1 ho n h hn
    rw [ct n h hn] at h1
    refine ⟨fun hb => ?_, fun hb => ?_⟩
    · rw [(te n h hn).1 hb] at h1; exact h1
    · rw [(te n h hn).2 hb] at h1; exact h1.1
  · obtain ⟨n, h, h', hn, hb, hc, hr⟩ := sp.2.2 ho
    rw [ct n h hn] at hc
    by_cases hB : Belongs C h fs
    · rw [(te n h hn).1 hB] at hc
      exact ⟨n, h, h', hn, hb, hB, hc, hr⟩
    · rw [(te n h hn).2 hB] at hc; omega

theorem keyOf_some {h : Hdr} {fs : List Word} (hc : h.col < fs.length) : fs[h.col]? = some (keyOf h fs) := by
  unfold keyOf; simp [List.getD, hc]

theorem Belongs.key {C : Cfg} {h : Hdr} {fs : List Word} (hb : Belongs C h fs) : fs[h.col]? = some (keyOf h fs) :=
  keyOf_some hb.1

/-- What wg_index_add_rec does: to every index the record belongs in it is added once if the index has no template
and twice if it has one; other indexes stay the same.  wg_index_del_rec undoes this. -/
theorem C55_hooks (C : Cfg) (bound : Nat → Bool) (idxs : List Hdr) (fs : List Word) (r : Row) (hl : ∀ h ∈ idxs, Legal C h) :
    (C.addRec idxs fs r).length = idxs.length ∧ C.delRec bound (C.addRec idxs fs r) fs r = (idxs, true) ∧
    ∀ (n : Nat) (h : Hdr), idxs[n]? = some h →
      (Belongs C h fs → ∃ k, fs[h.col]? = some k ∧ (C.addRec idxs fs r)[n]? =
        some { h with rows := List.replicate (if h.tmpl = none then 1 else 2) (r, k) ++ h.rows }) ∧
      (¬ Belongs C h fs → (C.addRec idxs fs r)[n]? = some h) := by
  have two : ∀ (e : Row × Word) (k : Nat) (l : List (Row × Word)), eraseN e k (List.replicate k e ++ l) = l := by
    intro e k l
    induction k with
    | zero => rfl
    | succ k ih => rw [eraseN, List.replicate_succ, List.cons_append, List.erase_cons_head, ih]
  have third : ∀ (n : Nat) (h : Hdr), idxs[n]? = some h →
      (Belongs C h fs → (C.addRec idxs fs r)[n]? = some (addK (r, keyOf h fs) (copies h) h)) ∧
      (¬ Belongs C h fs → (C.addRec idxs fs r)[n]? = some h) := by
    intro n h hn
    have hh := total_eq C fs h (hl h (List.mem_of_getElem? hn)) _ rfl
    rw [addRec_eq, List.getElem?_map, hn]
    refine ⟨fun hb => ?_, fun hb => ?_⟩
    · simp only [Option.map_some, hh.1 hb]
    · simp only [Option.map_some, hh.2 hb]; simp [addK]
  have hlen : (C.addRec idxs fs r).length = idxs.length := by rw [addRec_eq]; simp
  refine ⟨hlen, ?_, fun n h hn => ⟨fun hb => ⟨keyOf h fs, hb.key, (third n h hn).1 hb⟩, (third n h hn).2⟩⟩
  have back : ∀ (n : Nat) (g : Hdr), (C.addRec idxs fs r)[n]? = some g → ∃ h, idxs[n]? = some h := by
    intro n g hg
    cases hh : idxs[n]? with
    | none =>
      have := List.getElem?_eq_none_iff.1 hh
      rw [List.getElem?_eq_none (by rw [hlen]; exact this)] at hg; cases hg
    | some h => exact ⟨h, rfl⟩
  have hl' : ∀ h ∈ C.addRec idxs fs r, Legal C h := by
    intro h hh
    simp only [addRec_eq, List.mem_map] at hh
    obtain ⟨h0, h1, rfl⟩ := hh
    exact hl h0 h1
  have sp := delRec_spec C bound (C.addRec idxs fs r) fs r hl'
  have ok : (C.delRec bound (C.addRec idxs fs r) fs r).2 = true := by
    cases ho : (C.delRec bound (C.addRec idxs fs r) fs r).2 with
    | true => rfl
    | false =>
      obtain ⟨n, g, _, hg, _, hb, hc, _⟩ := sp.2.2 ho
      obtain ⟨h, hn⟩ := back n g hg
      by_cases hB : Belongs C h fs
      · rw [(third n h hn).1 hB] at hg; cases hg
        have : copies (addK (r, keyOf h fs) (copies h) h) = copies h := rfl
        have ek : keyOf (addK (r, keyOf h fs) (copies h) h) fs = keyOf h fs := rfl
        rw [this, ek] at hc
        simp only [addK, List.count_append, List.count_replicate_self] at hc
        omega
      · rw [(third n h hn).2 hB] at hg; cases hg
        exact absurd hb hB
  refine Prod.ext ?_ ok
  refine List.ext_getElem? fun n => ?_
  cases hn : idxs[n]? with
  | none =>
    have := List.getElem?_eq_none_iff.1 hn
    exact List.getElem?_eq_none (by rw [sp.1.1, hlen]; exact this)
  | some h =>
    by_cases hB : Belongs C h fs
    · have hg := (third n h hn).1 hB
      have := ((sp.2.1 ok n _ hg).1 hB).1
      rw [this]
      have ek : keyOf (addK (r, keyOf h fs) (copies h) h) fs = keyOf h fs := rfl
      have ec : copies (addK (r, keyOf h fs) (copies h) h) = copies h := rfl
      rw [ek, ec]
      simp only [delK, addK, two]
    · have hg := (third n h hn).2 hB
      exact (sp.2.1 ok n h hg).2 hB

/-! #### Programs -/

theorem trim_spec {C : Cfg} {t t' : List Word} (h : C.trim t = some t') :
    t'.length ≤ t.length ∧ (∃ (i : Nat) (w : Word), t'[i]? = some w ∧ C.isVar w = false) ∧
    ∀ (i : Nat) (w : Word), t'[i]? = some w → t[i]? = some w := by
  unfold Cfg.trim at h
  simp only [] at h
  split at h
  · cases h
  · rename_i hne
    simp only [Option.some.injEq] at h
    have hsuf : t.reverse = t.reverse.takeWhile C.isVar ++ t.reverse.dropWhile C.isVar :=
      (List.takeWhile_append_dropWhile).symm
    have ht : t = t' ++ (t.reverse.takeWhile C.isVar).reverse := by
      have := congrArg List.reverse hsuf
      rw [List.reverse_reverse, List.reverse_append, h] at this
      exact this
    refine ⟨by rw [ht]; simp, ?_, fun i w hi => ?_⟩
    · cases hd : t.reverse.dropWhile C.isVar with
      | nil => rw [hd] at h hne; simp at hne
      | cons w l =>
        have hw : C.isVar w = false := by
          have := List.head?_dropWhile_not C.isVar t.reverse
          rw [hd] at this; simpa using this
        rw [hd] at h
        refine ⟨l.length, w, ?_, hw⟩
        rw [← h]; simp
    · rw [ht]
      have : i < t'.length := by
        rcases Nat.lt_or_ge i t'.length with h | h
        · exact h
        · rw [List.getElem?_eq_none h] at hi; cases hi
      rw [List.getElem?_append_left this]; exact hi

theorem check_legal {C : Cfg} {idxs : List Hdr} {col : Nat} {m t} (h : C.checkIndex idxs col m = some t)
    (rows : List (Row × Word)) : Legal C ⟨col, t, rows⟩ := by
  unfold Cfg.checkIndex at h
  split at h
  · cases h
  · rename_i hc
    simp only [] at h
    split at h
    · cases h
    · rename_i t0 htm
      split at h
      · cases h
      · simp only [Option.some.injEq] at h
        subst h
        refine ⟨Nat.le_of_not_lt hc, fun t ht => ?_⟩
        simp only at ht
        subst ht
        cases m with
        | none => simp at htm
        | some u =>
          simp only at htm
          split at htm
          · cases htm
          · rename_i hu
            have hul : u.length ≤ 128 := Nat.le_of_not_lt fun h => hu (.inr h)
            have key : C.trim u = some t ∧ ∀ w, u[col]? = some w → C.isVar w = true := by
              split at htm
              · rename_i hn
                refine ⟨by simpa using htm, fun w hw => ?_⟩
                rw [hn] at hw; cases hw
              · rename_i w hw
                split at htm
                · rename_i hv
                  refine ⟨by simpa using htm, fun x hx => ?_⟩
                  rw [hw] at hx; cases hx; exact hv
                · cases htm
            obtain ⟨h1, h2, h3⟩ := trim_spec key.1
            exact ⟨Nat.le_trans h1 hul, h2, fun w hw => key.2 w (h3 _ _ hw)⟩

theorem build_count (C : Cfg) (s : St) (col : Nat) : ∀ (l : List Row) (h : Hdr), h.col = col → l.Nodup →
    ∃ rows, l.foldl (fun h r => if col ≥ (s.fields r).length then h
      else if C.matches_ h (s.fields r) then { h with rows := (r, keyOf h (s.fields r)) :: h.rows } else h) h
        = ⟨col, h.tmpl, rows⟩ ∧ ∀ r k,
      ((r ∈ l ∧ Belongs C h (s.fields r) ∧ (s.fields r)[col]? = some k) → rows.count (r, k) = h.rows.count (r, k) + 1) ∧
      (¬ (r ∈ l ∧ Belongs C h (s.fields r) ∧ (s.fields r)[col]? = some k) → rows.count (r, k) = h.rows.count (r, k))
  | [], h, hc, _ => ⟨h.rows, by subst hc; rfl, fun r k => by simp⟩
  | x :: l, h, hc, hnd => by
    rw [List.nodup_cons] at hnd
    rw [List.foldl_cons]
    by_cases hb : Belongs C h (s.fields x)
    · have h2 := (matches_iff C h _).2 hb
      have h1 : ¬ col ≥ (s.fields x).length := by rw [← hc]; exact Nat.not_le_of_lt h2.1
      simp only [h1, if_false, h2.2, if_true]
      obtain ⟨rows, e, hr⟩ := build_count C s col l { h with rows := (x, keyOf h (s.fields x)) :: h.rows } hc hnd.2
      refine ⟨rows, e, fun r k => ?_⟩
      have hr := hr r k
      have eb : Belongs C { h with rows := (x, keyOf h (s.fields x)) :: h.rows } (s.fields r) = Belongs C h (s.fields r) := rfl
      rw [eb] at hr
      have hk := hb.key
      rw [hc] at hk
      by_cases hx : r = x
      · subst hx
        have hn := hr.2 (fun h => hnd.1 h.1)
        rw [hn]
        by_cases hkk : keyOf h (s.fields r) = k
        · subst hkk
          refine ⟨fun _ => by simp, fun h => ?_⟩
          exact absurd ⟨List.mem_cons_self, hb, hk⟩ h
        · refine ⟨fun h => ?_, fun _ => ?_⟩
          · have := h.2.2; rw [hk] at this; exact absurd (Option.some.inj this) hkk
          · rw [List.count_cons_of_ne (by simpa using hkk)]
      · have hc2 : List.count (r, k) ((x, keyOf h (s.fields x)) :: h.rows) = h.rows.count (r, k) :=
          List.count_cons_of_ne (by intro e; exact hx (congrArg Prod.fst e).symm)
        simp only [hc2] at hr
        simpa [hx] using hr
    · have hno : (if col ≥ (s.fields x).length then h
          else if C.matches_ h (s.fields x) then { h with rows := (x, keyOf h (s.fields x)) :: h.rows } else h) = h := by
        split
        · rfl
        · rename_i h1
          split
          · rename_i h2
            exact absurd ((matches_iff C h _).1 ⟨by rw [hc]; exact Nat.lt_of_not_le h1, h2⟩) hb
          · rfl
      rw [hno]
      obtain ⟨rows, e, hr⟩ := build_count C s col l h hc hnd.2
      refine ⟨rows, e, fun r k => ?_⟩
      have hr := hr r k
      by_cases hx : r = x
      · subst hx
        refine ⟨fun h => absurd h.2.1 hb, fun _ => hr.2 fun h => hb h.2.1⟩
      · simpa [hx] using hr

/-- what holds in every program -/
def Inv (C : Cfg) (s : St) : Prop := s.live.Nodup ∧ ∀ h ∈ s.idxs, Legal C h

theorem legal_rows {C : Cfg} {h : Hdr} (hl : Legal C h) (rows) : Legal C { h with rows := rows } := hl

theorem step_inv (C : Cfg) (s : St) (op : Op) (hi : Inv C s) : Inv C (C.step s op) := by
  obtain ⟨hn, hl⟩ := hi
  have fr : ∀ r, r ∉ s.live → (s.live ++ [r]).Nodup := by
    intro r hr
    rw [List.nodup_append]
    refine ⟨hn, by simp, fun a ha b hb => ?_⟩
    simp at hb; subst hb; intro e; subst e; exact hr ha
  cases op with
  | create r len =>
    simp only [Cfg.step]; split
    · exact ⟨hn, hl⟩
    · rename_i hr; exact ⟨fr r hr, hl⟩
  | schema r len =>
    simp only [Cfg.step]; split
    · exact ⟨hn, hl⟩
    · rename_i hr
      refine ⟨fr r hr, fun h hh => ?_⟩
      simp only [addRec_eq, List.mem_map] at hh
      obtain ⟨h0, h1, rfl⟩ := hh
      exact legal_rows (hl h0 h1) _
  | setNew r i v => exact ⟨hn, hl⟩
  | set r i v => exact ⟨hn, hl⟩
  | delete r bound =>
    simp only [Cfg.step]
    have key : ∀ h ∈ (C.delRec bound s.idxs (s.fields r) r).1, Legal C h := by
      intro h hh
      have sp := (delRec_spec C bound s.idxs (s.fields r) r hl).1
      obtain ⟨n, hlt, hn⟩ := List.mem_iff_getElem.1 hh
      have hlt' : n < s.idxs.length := by rw [← sp.1]; exact hlt
      obtain ⟨rows, hr⟩ := sp.2 n s.idxs[n] (List.getElem?_eq_getElem hlt')
      rw [List.getElem?_eq_getElem hlt, hn] at hr
      cases hr
      exact legal_rows (hl _ (List.getElem_mem hlt')) _
    split
    · generalize hd : C.delRec bound s.idxs (s.fields r) r = d at key
      obtain ⟨idxs, ok⟩ := d
      cases ok
      · exact ⟨hn, key⟩
      · exact ⟨hn.erase r, key⟩
    · exact ⟨hn, hl⟩
  | index col m =>
    simp only [Cfg.step]; split
    · exact ⟨hn, hl⟩
    · rename_i t ht
      refine ⟨hn, fun h hh => ?_⟩
      simp only [List.mem_append, List.mem_singleton] at hh
      cases hh with
      | inl hh => exact hl h hh
      | inr hh =>
        obtain ⟨rows, e, _⟩ := build_count C s col s.live ⟨col, t, []⟩ rfl hn
        rw [hh, Cfg.build, e]
        exact check_legal ht rows
  | drop n =>
    exact ⟨hn, fun h hh => hl h (List.mem_of_mem_eraseIdx hh)⟩

theorem run_snoc (C : Cfg) (ops op) : C.run (ops ++ [op]) = C.step (C.run ops) op := by
  simp [Cfg.run, List.foldl_append]

theorem run_inv (C : Cfg) (ops : List Op) : Inv C (C.run ops) := by
  have : ∀ (ops : List Op) s, Inv C s → Inv C (ops.foldl C.step s) := by
    intro ops
    induction ops with
    | nil => exact fun s h => h
    | cons o ops ih => exact fun s h => ih _ (step_inv C s o h)
  exact this ops _ ⟨List.nodup_nil, fun h hh => nomatch hh⟩

theorem current_congr {C : Cfg} {s s' : St} {h : Hdr} (hw : ∀ r k, Wanted C s' h r k ↔ Wanted C s h r k) :
    Current C s' h ↔ Current C s h := by
  unfold Current
  simp only [hw]

/-- only one of two sets of wanted rows is in an index -/
theorem current_unique {C : Cfg} {s s' : St} {h : Hdr} (h1 : Current C s h) (h2 : Current C s' h) (r k) :
    Wanted C s' h r k ↔ Wanted C s h r k := by
  constructor
  · intro hw
    refine Classical.byContradiction fun hn => ?_
    have a := (h2 r k).1 hw
    have b := (h1 r k).2 hn
    omega
  · intro hw
    refine Classical.byContradiction fun hn => ?_
    have a := (h1 r k).1 hw
    have b := (h2 r k).2 hn
    omega

theorem fresh_wanted (C : Cfg) (s : St) (r : Row) (len : Nat) (hr : r ∉ s.live) (h : Hdr) (x : Row) (k : Word) :
    Wanted C (s.fresh r len) h x k ↔
      (x = r ∧ Belongs C h (List.replicate len 0) ∧ (List.replicate len (0 : Word))[h.col]? = some k) ∨ Wanted C s h x k := by
  unfold Wanted St.fresh
  by_cases hx : x = r
  · subst hx; simp [hr]
  · simp [hx]

/-- Starting with indexes that are current, a call leaves them current exactly if it does no harm. -/
theorem step_current (C : Cfg) (s : St) (op : Op) (hi : Inv C s) (hc : ∀ h ∈ s.idxs, Current C s h) :
    (∀ h ∈ (C.step s op).idxs, Current C (C.step s op) h) ↔ Safe C s op := by
  obtain ⟨hn_, hl⟩ := hi
  cases op with
  | create r len =>
    simp only [Cfg.step, Safe]
    by_cases hr : r ∈ s.live
    · simp only [hr, if_true, not_true, false_implies, iff_true]; exact hc
    · simp only [hr, if_false, not_false_eq_true, true_implies]
      constructor
      · intro h1 h hh hb
        have := (current_unique (hc h hh) (h1 h hh) r (keyOf h (List.replicate len 0))).1
          ((fresh_wanted C s r len hr h r _).2 (.inl ⟨rfl, hb, hb.key⟩))
        exact hr this.1
      · intro h1 h hh
        refine (current_congr fun x k => ?_).2 (hc h hh)
        rw [fresh_wanted C s r len hr]
        exact ⟨fun h2 => h2.elim (fun h3 => absurd h3.2.1 (h1 h hh)) id, .inr⟩
  | schema r len =>
    simp only [Cfg.step, Safe]
    by_cases hr : r ∈ s.live
    · simp only [hr, if_true, not_true, false_implies, iff_true]; exact hc
    · simp only [hr, if_false, not_false_eq_true, true_implies]
      have ef : (s.fresh r len).fields r = List.replicate len 0 := by simp [St.fresh]
      have ei : (s.fresh r len).idxs = s.idxs := rfl
      simp only [ef, ei, addRec_eq, List.mem_map, forall_exists_index, and_imp, forall_apply_eq_imp_iff₂]
      -- what is counted before
      have zero : ∀ h ∈ s.idxs, ∀ k, h.rows.count (r, k) = 0 := fun h hh k => (hc h hh r k).2 fun hw => hr hw.1
      constructor
      · intro h1 h hh ht hb
        have h2 := h1 h hh
        have tot := (total_eq C (List.replicate len 0) h (hl h hh) _ rfl).1 hb
        rw [tot] at h2
        have h3 := (h2 r (keyOf h (List.replicate len 0))).1
          ((fresh_wanted C s r len hr h r _).2 (.inl ⟨rfl, hb, hb.key⟩))
        simp only [addK, copies, ht, if_false, List.count_append, List.count_replicate_self] at h3
        omega
      · intro h1 h hh x k
        have ew : Wanted C ⟨(s.fresh r len).live, (s.fresh r len).fields,
            s.idxs.map fun h => addK (r, keyOf h (List.replicate len 0))
              (total C (List.replicate len 0) (if (List.replicate len (0 : Word)).length > 127 then tableSize else (List.replicate len (0 : Word)).length) h
              (if (List.replicate len (0 : Word)).length > 127 then tableSize else (List.replicate len (0 : Word)).length)) h⟩
            (addK (r, keyOf h (List.replicate len 0)) (total C (List.replicate len 0) (if (List.replicate len (0 : Word)).length > 127 then tableSize else (List.replicate len (0 : Word)).length) h
              (if (List.replicate len (0 : Word)).length > 127 then tableSize else (List.replicate len (0 : Word)).length)) h) x k
            = Wanted C (s.fresh r len) h x k := rfl
        rw [ew, fresh_wanted C s r len hr]
        have tot := total_eq C (List.replicate len 0) h (hl h hh) _ rfl
        by_cases hb : Belongs C h (List.replicate len 0)
        · have ht : h.tmpl = none := Classical.byContradiction fun ht => h1 h hh ht hb
          rw [tot.1 hb]
          simp only [copies, ht, if_true, addK, List.replicate_one, List.singleton_append]
          by_cases hx : x = r
          · subst hx
            have nw : ¬ Wanted C s h x k := fun hw => hr hw.1
            have hz := zero h hh k
            by_cases hk : keyOf h (List.replicate len 0) = k
            · subst hk
              refine ⟨fun _ => by simp [hz], fun h2 => absurd (.inl ⟨rfl, hb, hb.key⟩) h2⟩
            · refine ⟨fun h2 => h2.elim (fun h3 => ?_) (fun h3 => absurd h3 nw), fun _ => ?_⟩
              · have := h3.2.2; rw [hb.key] at this; exact absurd (Option.some.inj this) hk
              · rw [List.count_cons_of_ne (by simpa using hk)]; exact hz
          · rw [List.count_cons_of_ne (by intro e; exact hx (congrArg Prod.fst e).symm)]
            simpa [hx] using hc h hh x k
        · rw [tot.2 hb]
          simpa [addK, hb] using hc h hh x k
  | setNew r i v =>
    simp only [Cfg.step, Safe]
    constructor
    · intro h1 hr h hh k
      have := current_unique (hc h hh) (h1 h hh) r k
      simpa [Wanted, hr] using this
    · intro h1 h hh
      refine (current_congr fun x k => ?_).2 (hc h hh)
      by_cases hx : x = r
      · subst hx
        unfold Wanted
        simp only [if_true]
        exact ⟨fun h2 => ⟨h2.1, (h1 h2.1 h hh k).1 h2.2⟩, fun h2 => ⟨h2.1, (h1 h2.1 h hh k).2 h2.2⟩⟩
      · simp [Wanted, hx]
  | set r i v => simp only [Cfg.step, Safe, iff_true]; exact hc
  | delete r bound =>
    simp only [Cfg.step, Safe]
    by_cases hr : r ∈ s.live
    · simp only [hr, if_true, true_implies]
      have sp := delRec_spec C bound s.idxs (s.fields r) r hl
      have one : ∀ (n : Nat) (h : Hdr), s.idxs[n]? = some h → Belongs C h (s.fields r) →
          h.rows.count (r, keyOf h (s.fields r)) = 1 := fun n h hn hb =>
        (hc h (List.mem_of_getElem? hn) r _).1 ⟨hr, hb, hb.key⟩
      generalize C.delRec bound s.idxs (s.fields r) r = d at sp
      obtain ⟨idxs', ok⟩ := d
      cases ok with
      | false =>
        obtain ⟨n, h, h', hn, hb, hB, hlt, hn', e1, e2, hz⟩ := sp.2.2 rfl
        simp only []
        constructor
        · intro h1
          have := (h1 h' (List.mem_of_getElem? hn') r (keyOf h (s.fields r))).1
            ⟨hr, by unfold Belongs; rw [e1, e2]; exact hB, by rw [e1]; exact hB.key⟩
          omega
        · intro h1
          have h2 := one n h hn hB
          have h3 : h.tmpl ≠ none := by
            intro ht
            have : copies h = 1 := by simp [copies, ht]
            omega
          have := h1 n h hn h3 hB
          rw [hb] at this; cases this
      | true =>
        simp only []
        have h1 := sp.2.1 rfl
        refine ⟨fun _ n h hn ht hB => ?_, fun _ => ?_⟩
        · cases hb : bound n with
          | false => rfl
          | true =>
            have h2 := ((h1 n h hn).1 hB).2 hb
            have h3 := one n h hn hB
            have : copies h = 2 := by simp [copies, ht]
            omega
        · intro g hg
          obtain ⟨n, hlt, hgn⟩ := List.mem_iff_getElem.1 hg
          have hlt' : n < s.idxs.length := by rw [← sp.1.1]; exact hlt
          have hn : s.idxs[n]? = some s.idxs[n] := List.getElem?_eq_getElem hlt'
          generalize s.idxs[n] = h at hn
          have hh := List.mem_of_getElem? hn
          have hg' : idxs'[n]? = some g := by rw [List.getElem?_eq_getElem hlt, hgn]
          intro x k
          have hx0 := hc h hh x k
          have eg : ∃ m, g = delK (r, keyOf h (s.fields r)) m h ∧ (Belongs C h (s.fields r) → 1 ≤ m) := by
            by_cases hB : Belongs C h (s.fields r)
            · have := ((h1 n h hn).1 hB).1
              simp only [] at this
              rw [hg'] at this; cases this
              exact ⟨_, rfl, fun _ => by unfold copies; split <;> omega⟩
            · have := (h1 n h hn).2 hB
              simp only [] at this
              rw [hg'] at this; cases this
              exact ⟨0, rfl, fun h => absurd h hB⟩
          obtain ⟨m, rfl, hm⟩ := eg
          by_cases hx : x = r
          · subst hx
            have nw : ¬ (x ∈ s.live.erase x) := fun h => by
              have := (List.Nodup.mem_erase_iff hn_).1 h; exact this.1 rfl
            refine ⟨fun hw => absurd hw.1 nw, fun _ => ?_⟩
            show List.count (x, k) (eraseN _ m h.rows) = 0
            by_cases hk : keyOf h (s.fields x) = k
            · subst hk
              rw [count_eraseN_self]
              by_cases hB : Belongs C h (s.fields x)
              · rw [hx0.1 ⟨hr, hB, hB.key⟩]; have := hm hB; omega
              · rw [hx0.2 fun hw => hB hw.2.1]; omega
            · rw [count_eraseN_ne _ _ (by intro e; exact hk (congrArg Prod.snd e).symm)]
              refine hx0.2 fun hw => ?_
              have := hw.2.2; rw [hw.2.1.key] at this; exact hk (Option.some.inj this)
          · have ec : List.count (x, k) (eraseN (r, keyOf h (s.fields r)) m h.rows) = h.rows.count (x, k) :=
              count_eraseN_ne _ _ (by intro e; exact hx (congrArg Prod.fst e)) _ _
            show (_ → List.count (x, k) (eraseN _ m h.rows) = 1) ∧ (_ → List.count (x, k) (eraseN _ m h.rows) = 0)
            rw [ec]
            have em : x ∈ s.live.erase r ↔ x ∈ s.live := List.mem_erase_of_ne hx
            refine ⟨fun hw => hx0.1 ⟨em.1 hw.1, hw.2⟩, fun hw => hx0.2 fun h2 => hw ⟨em.2 h2.1, h2.2⟩⟩
    · simp only [hr, if_false, false_implies, iff_true]; exact hc
  | index col m =>
    simp only [Cfg.step, Safe, iff_true]
    split
    · exact hc
    · rename_i t ht
      intro h hh
      simp only [List.mem_append, List.mem_singleton] at hh
      cases hh with
      | inl hh => exact hc h hh
      | inr hh =>
        obtain ⟨rows, e, hr⟩ := build_count C s col s.live ⟨col, t, []⟩ rfl hn_
        subst hh
        intro r k
        unfold Cfg.build at *
        rw [e]
        have := hr r k
        simpa [Wanted, Belongs] using this
  | drop n =>
    simp only [Cfg.step, Safe, iff_true]
    exact fun h hh => hc h (List.mem_of_mem_eraseIdx hh)

/-- C55 (part): in a program all of whose calls do no harm every index has the records that belong in
it, once, with their keys, and nothing else; and the first call that does harm leaves some index that is not
current.  Missing: that no call does harm (false: see the cases below). -/
theorem C55_current_partial (C : Cfg) (ops : List Op) (hs : SafeAll C ops) :
    (∀ h ∈ (C.run ops).idxs, Current C (C.run ops) h) ∧
    ∀ op, ¬ Safe C (C.run ops) op → ∃ h ∈ (C.run (ops ++ [op])).idxs, ¬ Current C (C.run (ops ++ [op])) h := by
  have main : ∀ n, n ≤ ops.length → ∀ h ∈ (C.run (ops.take n)).idxs, Current C (C.run (ops.take n)) h := by
    intro n
    induction n with
    | zero => intro _ h hh; simp [Cfg.run] at hh
    | succ n ih =>
      intro hn
      have e : ops.take (n + 1) = ops.take n ++ [ops[n]] := by simp
      rw [e, run_snoc]
      refine (step_current C _ _ (run_inv C _) (ih (Nat.le_of_succ_le hn))).2 (hs _ _ (ops.drop (n + 1)) ?_)
      simp
  have h1 := main ops.length (Nat.le_refl _)
  rw [List.take_length] at h1
  refine ⟨h1, fun op ho => ?_⟩
  rw [run_snoc]
  refine Classical.byContradiction fun hn => ho ?_
  refine (step_current C _ op (run_inv C _) h1).1 fun h hh => ?_
  exact Classical.byContradiction fun hc => hn ⟨h, hh, hc⟩

theorem ite_twice (h : Hdr) (F : Hdr → Hdr) (p : Hdr → Bool) (hp : p (F h) = p h) (A M : Prop) [Decidable A] [Decidable M]
    (ha : ¬ (A ∧ p h = true)) (ho : A ∨ p h = true) :
    (let h1 := if A ∧ M then F h else h
      if p h1 = true ∧ M then F h1 else h1) = if M then F h else h := by
  by_cases hM : M
  · by_cases hA : A
    · have : ¬ p h = true := fun x => ha ⟨hA, x⟩
      simp [hM, hA, hp, this]
    · simp [hM, hA, ho.resolve_left hA]
  · simp [hM]

/-- If wg_index_del_field and wg_index_add_field were called around a change of a field (as wg_set_field does
without QUICK_REASONER), then the indexes would stay current. -/
theorem C55_field_hooks (C : Cfg) (s : St) (r : Row) (i : Nat) (v : Word) (hl : ∀ h ∈ s.idxs, Legal C h)
    (hc : ∀ h ∈ s.idxs, Current C s h) (hr : r ∈ s.live) (hi : i < (s.fields r).length)
    (s' : St) (hs : s' = ⟨s.live, fun x => if x = r then (s.fields r).set i v else s.fields x,
      C.addField (C.delField s.idxs (s.fields r) r i) ((s.fields r).set i v) r i⟩) :
    ∀ h ∈ s'.idxs, Current C s' h := by
  subst hs
  have leg : ∀ h ∈ s.idxs, ¬ (h.col = i ∧ C.fixedAt h i = true) := by
    rintro h hh ⟨h1, h2⟩
    unfold Cfg.fixedAt at h2
    split at h2
    · cases h2
    · rename_i t ht
      split at h2
      · cases h2
      · rename_i w hw
        have := ((hl h hh).2 t ht).2.2 w (by rw [h1]; exact hw)
        rw [this] at h2; cases h2
  simp only [Cfg.addField, Cfg.delField, List.map_map, List.mem_map, Function.comp_apply, forall_exists_index, and_imp,
    forall_apply_eq_imp_iff₂]
  intro h hh
  generalize hf : s.fields r = fs at *
  have hlen : (fs.set i v).length = fs.length := List.length_set
  by_cases ht : h.col = i ∨ C.fixedAt h i = true
  · -- the index is looked at
    have stepDel : (let h1 := if h.col = i ∧ fs.length > h.col ∧ C.matches_ h fs = true then { h with rows := h.rows.erase (r, keyOf h fs) } else h
        if C.fixedAt h1 i = true ∧ fs.length > h.col ∧ C.matches_ h fs = true then { h1 with rows := h1.rows.erase (r, keyOf h1 fs) } else h1)
        = if fs.length > h.col ∧ C.matches_ h fs = true then { h with rows := h.rows.erase (r, keyOf h fs) } else h := by
      exact ite_twice h (fun h => { h with rows := h.rows.erase (r, keyOf h fs) }) (fun h => C.fixedAt h i) rfl
        (h.col = i) (fs.length > h.col ∧ C.matches_ h fs = true) (leg h hh) ht
    simp only [] at stepDel
    rw [stepDel]
    obtain ⟨rows1, e1, hcnt⟩ : ∃ rows1, (if fs.length > h.col ∧ C.matches_ h fs = true then { h with rows := h.rows.erase (r, keyOf h fs) } else h)
        = { h with rows := rows1 } ∧ ∀ x k, (x = r → rows1.count (x, k) = 0) ∧ (x ≠ r → rows1.count (x, k) = h.rows.count (x, k)) := by
      by_cases hm : fs.length > h.col ∧ C.matches_ h fs = true
      · have hb := (matches_iff C h fs).1 hm
        refine ⟨_, if_pos hm, fun x k => ⟨fun hx => ?_, fun hx => ?_⟩⟩
        · subst hx
          by_cases hk : keyOf h fs = k
          · subst hk
            have := (hc h hh x (keyOf h fs)).1 ⟨hr, by rw [hf]; exact hb, by rw [hf]; exact hb.key⟩
            rw [List.count_erase_self, this]
          · rw [List.count_erase_of_ne (by intro e; exact hk (congrArg Prod.snd e).symm)]
            refine (hc h hh x k).2 fun hw => ?_
            have := hw.2.2; rw [hf, hb.key] at this; exact hk (Option.some.inj this)
        · rw [List.count_erase_of_ne (by intro e; exact hx (congrArg Prod.fst e))]
      · refine ⟨h.rows, if_neg hm, fun x k => ⟨fun hx => ?_, fun _ => rfl⟩⟩
        subst hx
        refine (hc h hh x k).2 fun hw => hm ((matches_iff C h fs).2 ?_)
        have := hw.2.1; rw [hf] at this; exact this
    rw [e1]
    have stepAdd : (let h1 := if h.col = i ∧ (fs.set i v).length > h.col ∧ C.matches_ { h with rows := rows1 } (fs.set i v) = true then { h with rows := (r, keyOf { h with rows := rows1 } (fs.set i v)) :: rows1 } else { h with rows := rows1 }
        if C.fixedAt h1 i = true ∧ (fs.set i v).length > h.col ∧ C.matches_ { h with rows := rows1 } (fs.set i v) = true then { h1 with rows := (r, keyOf h1 (fs.set i v)) :: h1.rows } else h1)
        = if (fs.set i v).length > h.col ∧ C.matches_ h (fs.set i v) = true then { h with rows := (r, keyOf h (fs.set i v)) :: rows1 } else { h with rows := rows1 } := by
      exact ite_twice { h with rows := rows1 } (fun h => { h with rows := (r, keyOf h (fs.set i v)) :: h.rows })
        (fun h => C.fixedAt h i) rfl (h.col = i) ((fs.set i v).length > h.col ∧ C.matches_ h (fs.set i v) = true)
        (leg h hh) ht
    simp only [] at stepAdd
    rw [stepAdd]
    intro x k
    have hx0 := hc h hh x k
    have hcx := hcnt x k
    have wr : ∀ (rows : List (Row × Word)) (idx : List Hdr), Wanted C ⟨s.live, fun x => if x = r then fs.set i v else s.fields x, idx⟩ { h with rows := rows } x k ↔
        (x = r ∧ Belongs C h (fs.set i v) ∧ (fs.set i v)[h.col]? = some k) ∨ (x ≠ r ∧ Wanted C s h x k) := by
      intro rows idx
      unfold Wanted
      by_cases hx : x = r
      · subst hx
        simp only [if_true, hr, true_and, ne_eq, not_true, false_and, or_false]
        exact Iff.rfl
      · simp only [hx, if_false, false_and, ne_eq, not_false_eq_true, true_and, false_or]
        exact Iff.rfl
    by_cases hm : (fs.set i v).length > h.col ∧ C.matches_ h (fs.set i v) = true
    · have hb := (matches_iff C h _).1 hm
      rw [if_pos hm, wr]
      by_cases hx : x = r
      · subst hx
        have hz := hcx.1 rfl
        by_cases hk : keyOf h (fs.set i v) = k
        · subst hk
          refine ⟨fun _ => by simp [hz], fun h2 => absurd (.inl ⟨rfl, hb, hb.key⟩) h2⟩
        · refine ⟨fun h2 => h2.elim (fun h3 => ?_) (fun h3 => absurd rfl h3.1), fun _ => ?_⟩
          · have := h3.2.2; rw [hb.key] at this; exact absurd (Option.some.inj this) hk
          · show List.count (x, k) (_ :: rows1) = 0
            rw [List.count_cons_of_ne (by simpa using hk)]; exact hz
      · have : List.count (x, k) ((r, keyOf h (fs.set i v)) :: rows1) = h.rows.count (x, k) := by
          rw [List.count_cons_of_ne (by intro e; exact hx (congrArg Prod.fst e).symm), hcx.2 hx]
        simp only [this]
        simpa [hx] using hx0
    · have hb : ¬ Belongs C h (fs.set i v) := fun hb => hm ((matches_iff C h _).2 hb)
      rw [if_neg hm, wr]
      by_cases hx : x = r
      · refine ⟨fun h2 => h2.elim (fun h3 => absurd h3.2.1 hb) (fun h3 => absurd hx h3.1), fun _ => hcx.1 hx⟩
      · simp only [hcx.2 hx]
        simpa [hx] using hx0
  · -- the index is not looked at
    have h1 : ¬ h.col = i := fun h => ht (.inl h)
    have h2 : ¬ C.fixedAt h i = true := fun h => ht (.inr h)
    rw [if_neg (c := h.col = i ∧ fs.length > h.col ∧ C.matches_ h fs = true) fun x => h1 x.1]
    rw [if_neg (c := C.fixedAt h i = true ∧ fs.length > h.col ∧ C.matches_ h fs = true) fun x => h2 x.1]
    rw [if_neg (c := h.col = i ∧ (fs.set i v).length > h.col ∧ C.matches_ h (fs.set i v) = true) fun x => h1 x.1]
    rw [if_neg (c := C.fixedAt h i = true ∧ (fs.set i v).length > h.col ∧ C.matches_ h (fs.set i v) = true) fun x => h2 x.1]
    refine (current_congr fun x k => ?_).2 (hc h hh)
    unfold Wanted
    by_cases hx : x = r
    · subst hx
      have ek : (fs.set i v)[h.col]? = fs[h.col]? := by
        rw [List.getElem?_set_ne fun e => h1 e.symm]
      have eb : Belongs C h (fs.set i v) ↔ Belongs C h fs := by
        unfold Belongs
        rw [hlen]
        refine and_congr_right fun _ => forall_congr' fun t => ?_
        refine imp_congr_right fun htm => and_congr_right fun _ => ?_
        refine forall_congr' fun j => forall_congr' fun w => imp_congr_right fun hw => ?_
        by_cases hj : j = i
        · subst hj
          have : C.isVar w = true := by
            simp only [Cfg.fixedAt, htm, hw] at h2
            simpa using h2
          simp [this]
        · rw [List.getElem?_set_ne fun e => hj e.symm]
      simp only [if_true, hf, ek, eb]
    · simp [hx]

/-! ### Cases -/

/-- numbers are their own values, 99 is a variable -/
def demo : Cfg := ⟨fun a b => compare a b, fun w => w == 99⟩

/-- a record is created after the index: it is not in the index -/
def later : List Op := [.create 1 2, .index 0 none, .create 2 2]

/-- A record created after an index on its first column is not found through it. -/
theorem C55_record_not_indexed : (demo.run later).live = [1, 2] ∧ (demo.run later).fields 2 = [0, 0] ∧
    (demo.run later).idxs = [⟨0, none, [(1, 0)]⟩] := by decide +kernel

theorem C55_record_not_indexed_wrong : ∃ h ∈ (demo.run later).idxs, ¬ Current demo (demo.run later) h := by
  refine ⟨⟨0, none, [(1, 0)]⟩, by rw [C55_record_not_indexed.2.2]; simp, fun h => ?_⟩
  have := (h 2 0).1 ⟨by rw [C55_record_not_indexed.1]; simp, ⟨by rw [C55_record_not_indexed.2.1]; decide, fun t ht => (nomatch ht)⟩,
    by rw [C55_record_not_indexed.2.1]; rfl⟩
  revert this; decide

/-- A record made by wg_create_array is twice in an index with a template, so that queries that use the index
give it twice. -/
theorem C55_template_twice : (demo.run [.index 0 (some [99, 0]), .schema 1 2]).idxs = [⟨0, some [99, 0], [(1, 0), (1, 0)]⟩] := by
  decide +kernel

/-- The key of a record is stored after the record was put in the index: the index has the old key. -/
theorem C55_stale_key : (demo.run [.index 0 none, .schema 1 2, .setNew 1 0 7]).fields 1 = [7, 0] ∧
    (demo.run [.index 0 none, .schema 1 2, .setNew 1 0 7]).idxs = [⟨0, none, [(1, 0)]⟩] := by decide +kernel

/-- ... and then the record is deleted: the index has a row that is no record. -/
theorem C55_dead_row : (demo.run [.index 0 none, .schema 1 2, .setNew 1 0 7, .delete 1 fun _ => false]).live = [] ∧
    (demo.run [.index 0 none, .schema 1 2, .setNew 1 0 7, .delete 1 fun _ => false]).idxs = [⟨0, none, [(1, 0)]⟩] := by
  decide +kernel

/-- three records with keys 11, 12, 13 and an index with a template -/
def three : List Op := [.create 1 2, .create 2 2, .create 3 2, .setNew 1 0 11, .setNew 2 0 12, .setNew 3 0 13,
  .index 0 (some [99, 0])]

/-- A record that is in an index with a template cannot be deleted if its key lies between others: it is removed from the
index, the second removal fails, and the record stays. -/
theorem C55_delete_fails : (demo.run three).idxs = [⟨0, some [99, 0], [(3, 13), (2, 12), (1, 11)]⟩] ∧
    (demo.run (three ++ [.delete 2 fun _ => true])).live = [1, 2, 3] ∧
    (demo.run (three ++ [.delete 2 fun _ => true])).idxs = [⟨0, some [99, 0], [(3, 13), (1, 11)]⟩] := by decide +kernel

/-- the key of row `r` is `10 + r`, or the key of row 1 was stored later -/
def env (late : Bool) : TTree.Env := ⟨fun r => if r = 1 ∧ late then 30 else 10 + r, fun a b => compare a b, 0⟩

/-- That is what the T-tree does: the second removal of row 2 out of 1, 2, 3 gives -3 (`bound` above is true). -/
theorem C55_second_removal : ((TTree.insertAll (env false) (TTree.empty (env false) 100) [(1, none), (2, none), (3, none)]).bind
      fun ix => (TTree.remove (env false) ix 2).bind fun x => (TTree.remove (env false) x.1 2).map fun y => (TT.contents y.1, x.2, y.2)) =
    some ([1, 3], 0, -3) := by decide +kernel

/-- ... and a row with another key than when it was added is not found and stays (`bound` is false). -/
theorem C55_stale_removal : ((TTree.insertAll (env false) (TTree.empty (env false) 100) [(1, none), (2, none)]).bind
      fun ix => (TTree.remove (env true) ix 1).map fun x => (TT.contents x.1, x.2)) = some ([1, 2], -2) := by decide +kernel

theorem safeAll_snoc {C : Cfg} {ops : List Op} {op : Op} (h : SafeAll C ops) (ho : Safe C (C.run ops) op) :
    SafeAll C (ops ++ [op]) := by
  intro pre o post e
  rcases List.eq_nil_or_concat post with hp | ⟨post', x, hp⟩
  · subst hp
    obtain ⟨e1, e2⟩ := List.append_inj' e rfl
    cases e2; cases e1; exact ho
  · subst hp
    have e' : ops ++ [op] = (pre ++ o :: post') ++ [x] := by simpa using e
    obtain ⟨e1, _⟩ := List.append_inj' e' rfl
    exact h pre o post' e1

/-- a program that does no harm: records are made and filled, then an index is made, then a record is put in
and another is deleted -/
example : SafeAll demo ([.create 1 2, .setNew 1 0 7, .index 0 none, .schema 2 1] ++ [.delete 1 fun _ => true]) ∧
    (demo.run ([.create 1 2, .setNew 1 0 7, .index 0 none, .schema 2 1] ++ [.delete 1 fun _ => true])).idxs =
      [⟨0, none, [(2, 0)]⟩] := by
  refine ⟨?_, by decide +kernel⟩
  refine safeAll_snoc (ops := [.create 1 2, .setNew 1 0 7, .index 0 none] ++ [.schema 2 1]) (safeAll_snoc
    (ops := [.create 1 2, .setNew 1 0 7] ++ [.index 0 none]) (safeAll_snoc (ops := [.create 1 2] ++ [.setNew 1 0 7]) (safeAll_snoc
    (ops := [] ++ [.create 1 2]) (safeAll_snoc (ops := []) ?_ ?_) ?_) ?_) ?_) ?_
  · intro pre op post e; simp at e
  · intro _ h hh; simp [Cfg.run] at hh
  · intro _ h hh; exact absurd hh (by simp [Cfg.run, Cfg.step, St.fresh])
  · trivial
  · intro _ h hh ht
    have : (demo.run ([.create 1 2, .setNew 1 0 7] ++ [.index 0 none])).idxs = [⟨0, none, [(1, 7)]⟩] := by decide +kernel
    rw [this] at hh; simp at hh; subst hh; exact absurd rfl ht
  · intro _ n h hn ht
    have : (demo.run ([.create 1 2, .setNew 1 0 7, .index 0 none] ++ [.schema 2 1])).idxs = [⟨0, none, [(2, 0), (1, 7)]⟩] := by
      decide +kernel
    rw [this] at hn
    have := List.mem_of_getElem? hn
    simp at this; subst this; exact absurd rfl ht

/-- an index that can be created, and a record that belongs in it -/
example : Legal demo ⟨0, some [99, 5], []⟩ ∧ Belongs demo ⟨0, some [99, 5], []⟩ [3, 5] ∧ ¬ Belongs demo ⟨0, some [99, 5], []⟩ [3, 6] := by
  refine ⟨⟨by decide, fun t ht => ?_⟩, (matches_iff _ _ _).1 (by decide), fun h => absurd ((matches_iff _ _ _).2 h) (by decide)⟩
  cases ht
  exact ⟨by decide, ⟨1, 5, by decide, by decide⟩, fun w hw => by simp at hw; subst hw; decide⟩

/-- the hooks around a change of a field -/
example : demo.addField (demo.delField [⟨0, some [99, 5], [(1, 3)]⟩, ⟨1, none, [(1, 5)]⟩] [3, 5] 1 1) [3, 6] 1 1 =
    [⟨0, some [99, 5], []⟩, ⟨1, none, [(1, 6)]⟩] := by decide +kernel

end Gkc.Props.Ih
