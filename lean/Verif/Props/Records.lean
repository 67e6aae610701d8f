import Verif.Records
import Verif.Props.Alloc
/-
C43: going through the records of a database.
-/
namespace Gkc.Props
open Gkc.Alloc

/-- the records obtained by asking for the next one again and again until there is none -/
inductive Listed (next : Nat → NRes) : NRes → List Nat → Prop
  | null : Listed next .null []
  | got {o : Nat} {l : List Nat} (h : Listed next (next o) l) : Listed next (.got o) (o :: l)

theorem Listed.unique {next : Nat → NRes} : ∀ {r : NRes} {l l' : List Nat}, Listed next r l → Listed next r l' → l = l'
  | _, _, _, .null, .null => rfl
  | _, _, _, .got h, .got h' => by rw [h.unique h']

/-! ### One step -/

theorem usedSize_of {n r : Nat} (h8 : n % 8 = 0) (h32 : 32 ≤ n) (hr : r < 4) : usedSize (n + r) = n := by
  unfold usedSize minObj
  rw [pure_add h8 hr]
  split
  · omega
  · split <;> omega

/-- the size read from the first word of a block -/
theorem Inv.step {s B L} (I : Inv s B L) {c n k} (hc : B c = some (n, k)) (hk : k ≠ .limbo) :
    (if decide (k = .free) then Alloc.pure (s.mem c) else usedSize (s.mem c)) = n := by
  have hal := I.tile.al hc
  cases k with
  | limbo => exact absurd rfl hk
  | used => simp; exact (I.used hc).2
  | free => simp; rw [(I.free hc).1]; exact pure_add hal.2.1 (by omega)
  | dv => simp; rw [(I.dv hc).2.2.1]; exact usedSize_of hal.2.1 hal.2.2.1 (by omega)
  | edge =>
    obtain ⟨rfl, h, _⟩ := I.mark hc (.inl rfl)
    simp; rw [h]; rfl
  | fin =>
    obtain ⟨rfl, h, _⟩ := I.mark hc (.inr rfl)
    simp; rw [h]; rfl

theorem nextF_spec {s B L} (I : Inv s B L) (hn : NoL B) : ∀ f {c n k}, B c = some (n, k) → k ≠ .fin →
    s.free < c + 32 * f →
    (∃ o m, nextF s f c (s.mem c) (decide (k = .free)) = .got o ∧ B o = some (m, .used) ∧ c < o ∧
      ∀ a p, B a = some (p, .used) → c < a → o ≤ a) ∨
    (nextF s f c (s.mem c) (decide (k = .free)) = .null ∧ ∀ a p, B a = some (p, .used) → a ≤ c) := by
  intro f
  induction f with
  | zero =>
    intro c n k hc _ hf
    have := I.tile.al hc
    omega
  | succ f ih =>
    intro c n k hc hk hf
    have hal := I.tile.al hc
    obtain ⟨m, j, hx⟩ := I.tile.nxt hc hk
    have hax := I.tile.al hx
    have hlim : k ≠ .limbo := fun h => hn c n (h ▸ hc)
    have next : ∀ a p, B a = some (p, .used) → c < a → j ≠ .used → c + n < a := by
      intro a p ha hca hj
      have h1 := I.tile.dis hc ha hca
      have h2 : a ≠ c + n := by rintro rfl; rw [hx] at ha; cases ha; exact hj rfl
      omega
    unfold nextF
    simp only [Inv.step I hc hlim]
    cases j with
    | limbo => exact absurd hx (hn _ _)
    | used =>
      rw [if_pos (I.used hx).1]
      exact .inl ⟨_, m, rfl, hx, by omega, fun a p ha hca => I.tile.dis hc ha hca⟩
    | free =>
      have hm := (I.free hx).1
      rw [if_neg (by omega), if_pos (by omega)]
      rcases ih hx (by decide) (by omega) with ⟨o, q, h1, h2, h3, h4⟩ | ⟨h1, h2⟩
      · exact .inl ⟨o, q, by simpa using h1, h2, by omega, fun a p ha hca => h4 a p ha (next a p ha hca (by decide))⟩
      · refine .inr ⟨by simpa using h1, fun a p ha => ?_⟩
        have h3 := h2 a p ha
        by_cases hca : c < a
        · have := next a p ha hca (by decide); omega
        · omega
    | dv =>
      obtain ⟨_, _, hm, hm'⟩ := I.dv hx
      rw [if_neg (by omega), if_neg (by omega), if_pos hm']
      rcases ih hx (by decide) (by omega) with ⟨o, q, h1, h2, h3, h4⟩ | ⟨h1, h2⟩
      · exact .inl ⟨o, q, by simpa using h1, h2, by omega, fun a p ha hca => h4 a p ha (next a p ha hca (by decide))⟩
      · refine .inr ⟨by simpa using h1, fun a p ha => ?_⟩
        have h3 := h2 a p ha
        by_cases hca : c < a
        · have := next a p ha hca (by decide); omega
        · omega
    | edge =>
      exfalso
      obtain ⟨p, hp, he⟩ := (I.tile.ends hx).1 rfl
      obtain ⟨q, hq, h1, h2⟩ := I.tile.ins hc
      have hqf := (I.tile.sub hq).2.1
      have hpp : 8192 ≤ p.2 := by
        obtain ⟨j, hj⟩ := (I.tile.sub hp).2.2
        have : 0 < 2 ^ j := Nat.pow_pos (by omega)
        omega
      rcases pairwise_or I.tile.ord hp hq with rfl | h | h
      · omega
      · omega
      · have hcq : c + n = q.1 + q.2 := by omega
        have hqa := I.tile.al hqf
        by_cases hce : c = q.1 + q.2 - 32
        · rw [← hce, hc] at hqf; cases hqf; exact hk rfl
        · have := I.tile.sep hc hqf hce
          omega
    | fin =>
      obtain ⟨rfl, hm, hm'⟩ := I.mark hx (.inr rfl)
      rw [if_neg (by omega), if_neg (by omega), if_neg (by omega)]
      obtain ⟨q, hq, he⟩ := (I.tile.ends hx).2 rfl
      have big : ∀ p ∈ s.subs, 8192 ≤ p.2 := by
        intro p hp
        obtain ⟨j, hj⟩ := (I.tile.sub hp).2.2
        have : 0 < 2 ^ j := Nat.pow_pos (by omega)
        omega
      have hq8 := big q hq
      cases hfi : s.subs.findIdx? fun p => p.1 ≤ c + n && c + n < p.1 + p.2 with
      | none =>
        exfalso
        have := List.findIdx?_eq_none_iff.1 hfi q hq
        simp only [Bool.and_eq_false_iff, decide_eq_false_iff_not] at this
        omega
      | some i =>
        simp only []
        obtain ⟨hi, hpi, _⟩ := List.findIdx?_eq_some_iff_getElem.1 hfi
        simp only [Bool.and_eq_true, decide_eq_true_eq] at hpi
        have hqi : q = s.subs[i] := by
          rcases pairwise_or I.tile.ord hq (List.getElem_mem hi) with h | h | h
          · exact h
          · omega
          · omega
        have ord := List.pairwise_iff_getElem.1 I.tile.ord
        -- used blocks further on are in later subareas
        have later : ∀ a p, B a = some (p, .used) → c < a → ∃ j, ∃ h : j < s.subs.length, i < j ∧ s.subs[j].1 ≤ a ∧
            a ≠ s.subs[j].1 := by
          intro a p ha hca
          have haa := I.tile.al ha
          have h1 := next a p ha hca (by decide)
          obtain ⟨r, hr, h2, h3⟩ := I.tile.ins ha
          obtain ⟨j, hj, rfl⟩ := List.getElem_of_mem hr
          refine ⟨j, hj, ?_, h2, ?_⟩
          · rcases Nat.lt_trichotomy j i with h | h | h
            · have := ord j i hj hi h; omega
            · subst h
              have := I.tile.dis hx ha h1
              rw [hqi] at he hq8
              omega
            · exact h
          · intro h4
            have := (I.tile.sub hr).1
            rw [← h4, ha] at this; cases this
        by_cases hl : i + 1 < s.subs.length
        · simp only [List.getElem?_eq_getElem hl]
          have hs := (I.tile.sub (List.getElem_mem hl)).1
          have ho := ord i (i + 1) hi hl (by omega)
          have next' : ∀ a p, B a = some (p, .used) → c < a → s.subs[i + 1].1 < a := by
            intro a p ha hca
            obtain ⟨j, hj, h1, h2, h3⟩ := later a p ha hca
            by_cases hji : j = i + 1
            · subst hji; omega
            · have := ord (i + 1) j hl hj (by omega)
              have := big _ (List.getElem_mem hl)
              omega
          have hfe : decide ((K.edge) = K.free) = false := by decide
          rcases ih hs (by decide) (by omega) with ⟨o, q', h1, h2, h3, h4⟩ | ⟨h1, h2⟩
          · exact .inl ⟨o, q', by rw [← h1, hfe], h2, by omega, fun a p ha hca => h4 a p ha (next' a p ha hca)⟩
          · refine .inr ⟨by rw [← h1, hfe], fun a p ha => ?_⟩
            have h3 := h2 a p ha
            by_cases hca : c < a
            · have := next' a p ha hca; omega
            · omega
        · rw [List.getElem?_eq_none (by omega)]
          refine .inr ⟨rfl, fun a p ha => ?_⟩
          by_cases hca : c < a
          · obtain ⟨j, hj, h1, _⟩ := later a p ha hca
            omega
          · omega

theorem nextRaw_spec {s B L} (I : Inv s B L) (hn : NoL B) {c n k} (hc : B c = some (n, k)) (hk : k = .used ∨ k = .edge) :
    (∃ o m, nextRaw s c = .got o ∧ B o = some (m, .used) ∧ c < o ∧ ∀ a p, B a = some (p, .used) → c < a → o ≤ a) ∨
    (nextRaw s c = .null ∧ ∀ a p, B a = some (p, .used) → a ≤ c) := by
  have hal := I.tile.al hc
  have fs := I.fsz
  have h := nextF_spec I hn (s.size / 32 + 1) hc (by rcases hk with rfl | rfl <;> decide) (by omega)
  have hf : decide (k = .free) = false := by rcases hk with rfl | rfl <;> decide
  rw [hf] at h
  exact h

theorem listed_raw {s B L} (I : Inv s B L) (hn : NoL B) : ∀ d {c n k}, s.free ≤ c + d → B c = some (n, k) →
    (k = .used ∨ k = .edge) →
    ∃ os, Listed (nextRaw s) (nextRaw s c) os ∧ os.Pairwise (· < ·) ∧
      ∀ o, o ∈ os ↔ c < o ∧ ∃ m, B o = some (m, .used) := by
  intro d
  induction d with
  | zero => intro c n k hd hc _; have := I.tile.al hc; omega
  | succ d ih =>
    intro c n k hd hc hk
    rcases nextRaw_spec I hn hc hk with ⟨o, m, h1, h2, h3, h4⟩ | ⟨h1, h2⟩
    · obtain ⟨os, l1, l2, l3⟩ := ih (c := o) (by omega) h2 (.inl rfl)
      rw [h1]
      refine ⟨o :: os, .got l1, List.pairwise_cons.2 ⟨fun a ha => ((l3 a).1 ha).1, l2⟩, ?_⟩
      intro a
      rw [List.mem_cons, l3]
      constructor
      · rintro (rfl | ⟨h, h'⟩)
        · exact ⟨h3, m, h2⟩
        · exact ⟨by omega, h'⟩
      · rintro ⟨h, p, h'⟩
        have := h4 a p h' h
        by_cases hao : a = o
        · exact .inl hao
        · exact .inr ⟨by omega, p, h'⟩
    · rw [h1]
      refine ⟨[], .null, List.Pairwise.nil, ?_⟩
      intro a
      constructor
      · intro h; simp at h
      · rintro ⟨h, p, h'⟩
        have := h2 a p h'
        omega

theorem RunInv.start {s l k B L} (R : RunInv s l k B L) :
    ∃ c, B c = some (32, .edge) ∧ firstRaw s = nextRaw s c ∧ ∀ a p, B a = some (p, .used) → c < a := by
  have h0 := R.sub0
  cases hs : s.subs with
  | nil => rw [hs] at h0; simp at h0
  | cons p ps =>
    have hp := (R.inv.tile.sub (p := p) (by rw [hs]; simp)).1
    refine ⟨p.1, hp, by rw [firstRaw, hs], ?_⟩
    intro a q ha
    obtain ⟨r, hr, h1, h2⟩ := R.inv.tile.ins ha
    have hne : a ≠ p.1 := by rintro rfl; rw [hp] at ha; cases ha
    have ho := R.inv.tile.ord
    rw [hs] at ho hr
    rcases List.mem_cons.1 hr with rfl | hr
    · omega
    · have := (List.pairwise_cons.1 ho).1 r hr
      omega

/-! ### Data records -/

theorem nextData_spec {s B L} (I : Inv s B L) (hn : NoL B) : ∀ f {c n k}, B c = some (n, k) → (k = .used ∨ k = .edge) →
    s.free < c + 32 * f →
    (∃ o m, nextDataF s f c = .got o ∧ B o = some (m, .used) ∧ c < o ∧ special s o = false ∧
      ∀ a p, B a = some (p, .used) → special s a = false → c < a → o ≤ a) ∨
    (nextDataF s f c = .null ∧ ∀ a p, B a = some (p, .used) → special s a = false → a ≤ c) := by
  intro f
  induction f with
  | zero => intro c n k hc _ hf; have := I.tile.al hc; omega
  | succ f ih =>
    intro c n k hc hk hf
    have hal := I.tile.al hc
    unfold nextDataF
    rcases nextRaw_spec I hn hc hk with ⟨o, m, h1, h2, h3, h4⟩ | ⟨h1, h2⟩
    · have hd := I.tile.dis hc h2 h3
      rw [h1]
      simp only []
      cases hs : special s o with
      | false =>
        simp only [Bool.false_eq_true, if_false]
        exact .inl ⟨o, m, rfl, h2, h3, hs, fun a p ha _ hca => h4 a p ha hca⟩
      | true =>
        simp only [if_true]
        have skip : ∀ a p, B a = some (p, .used) → special s a = false → c < a → o < a := by
          intro a p ha hsa hca
          have := h4 a p ha hca
          have : a ≠ o := by rintro rfl; rw [hs] at hsa; cases hsa
          omega
        rcases ih h2 (.inl rfl) (by omega) with ⟨o', m', g1, g2, g3, g4, g5⟩ | ⟨g1, g2⟩
        · exact .inl ⟨o', m', g1, g2, by omega, g4, fun a p ha hsa hca => g5 a p ha hsa (skip a p ha hsa hca)⟩
        · refine .inr ⟨g1, fun a p ha hsa => ?_⟩
          have := g2 a p ha hsa
          by_cases hca : c < a
          · have := skip a p ha hsa hca; omega
          · omega
    · rw [h1]
      exact .inr ⟨rfl, fun a p ha _ => h2 a p ha⟩

theorem listed_data {s B L} (I : Inv s B L) (hn : NoL B) : ∀ d {c n k}, s.free ≤ c + d → B c = some (n, k) →
    (k = .used ∨ k = .edge) →
    ∃ os, Listed (nextData s) (nextData s c) os ∧ os.Pairwise (· < ·) ∧
      ∀ o, o ∈ os ↔ c < o ∧ special s o = false ∧ ∃ m, B o = some (m, .used) := by
  intro d
  have fs := I.fsz
  induction d with
  | zero => intro c n k hd hc _; have := I.tile.al hc; omega
  | succ d ih =>
    intro c n k hd hc hk
    have hal := I.tile.al hc
    rcases nextData_spec I hn (s.size / 32 + 1) hc hk (by omega) with ⟨o, m, h1, h2, h3, hs, h4⟩ | ⟨h1, h2⟩
    · obtain ⟨os, l1, l2, l3⟩ := ih (c := o) (by omega) h2 (.inl rfl)
      rw [nextData, h1]
      refine ⟨o :: os, .got l1, List.pairwise_cons.2 ⟨fun a ha => ((l3 a).1 ha).1, l2⟩, ?_⟩
      intro a
      rw [List.mem_cons, l3]
      constructor
      · rintro (rfl | ⟨h, h'⟩)
        · exact ⟨h3, hs, m, h2⟩
        · exact ⟨by omega, h'⟩
      · rintro ⟨h, hsa, p, h'⟩
        have := h4 a p h' hsa h
        by_cases hao : a = o
        · exact .inl hao
        · exact .inr ⟨by omega, hsa, p, h'⟩
    · rw [nextData, h1]
      refine ⟨[], .null, List.Pairwise.nil, ?_⟩
      intro a
      constructor
      · intro h; simp at h
      · rintro ⟨h, hsa, p, h'⟩
        have := h2 a p h' hsa
        omega

/-! ### The theorems -/

/-- C43: wg_get_first_raw_record and wg_get_next_raw_record give each object that was made and is not freed exactly once,
in the order of offsets, and then NULL.  Objects whose deletion failed inside are among them. -/
theorem C43_raw_records {hb : Nat} {s : St} {l k : List (Nat × Nat)} (r : ARun hb s l k) :
    ∃ os, Listed (nextRaw s) (firstRaw s) os ∧ os.Pairwise (· < ·) ∧ ∀ o, o ∈ os ↔ ∃ n, (o, n) ∈ l ++ k := by
  obtain ⟨B, L, R⟩ := r.inv
  obtain ⟨c, hc, h1, h2⟩ := R.start
  obtain ⟨os, l1, l2, l3⟩ := listed_raw R.inv R.noL (s.free) (by omega) hc (.inr rfl)
  rw [h1]
  refine ⟨os, l1, l2, fun o => ?_⟩
  rw [l3]
  constructor
  · rintro ⟨_, m, h⟩
    obtain ⟨n, hn, _⟩ := (R.used o m).1 h
    exact ⟨n, hn⟩
  · rintro ⟨n, hn⟩
    have := (R.used o _).2 ⟨n, hn, rfl⟩
    exact ⟨h2 _ _ this, _, this⟩

/-- C43: wg_get_first_record and wg_get_next_record do the same for the records that are not special -/
theorem C43_data_records {hb : Nat} {s : St} {l k : List (Nat × Nat)} (r : ARun hb s l k) :
    ∃ os, Listed (nextData s) (firstData s) os ∧ os.Pairwise (· < ·) ∧
      ∀ o, o ∈ os ↔ (∃ n, (o, n) ∈ l ++ k) ∧ s.mem (o + 8) % 2 = 0 := by
  obtain ⟨B, L, R⟩ := r.inv
  obtain ⟨c, hc, h1, h2⟩ := R.start
  have sp : ∀ o, special s o = false ↔ s.mem (o + 8) % 2 = 0 := by
    intro o; simp [special]
  have fin : ∀ o, (c < o ∧ special s o = false ∧ ∃ m, B o = some (m, .used)) ↔
      (∃ n, (o, n) ∈ l ++ k) ∧ s.mem (o + 8) % 2 = 0 := by
    intro o
    rw [sp]
    constructor
    · rintro ⟨_, hs, m, h⟩
      obtain ⟨n, hn, _⟩ := (R.used o m).1 h
      exact ⟨⟨n, hn⟩, hs⟩
    · rintro ⟨⟨n, hn⟩, hs⟩
      have := (R.used o _).2 ⟨n, hn, rfl⟩
      exact ⟨h2 _ _ this, hs, _, this⟩
  rcases nextRaw_spec R.inv R.noL hc (.inr rfl) with ⟨o, m, g1, g2, g3, g4⟩ | ⟨g1, g2⟩
  · obtain ⟨os, l1, l2, l3⟩ := listed_data R.inv R.noL (s.free) (by omega) g2 (.inl rfl)
    unfold firstData
    rw [h1, g1]
    simp only []
    cases hs : special s o with
    | true =>
      simp only [if_true]
      refine ⟨os, l1, l2, fun a => ?_⟩
      rw [l3, ← fin]
      constructor
      · rintro ⟨h, h'⟩; exact ⟨by omega, h'⟩
      · rintro ⟨h, hsa, p, h'⟩
        have := g4 a p h' h
        have : a ≠ o := by rintro rfl; rw [hs] at hsa; cases hsa
        exact ⟨by omega, hsa, p, h'⟩
    | false =>
      simp only [Bool.false_eq_true, if_false]
      refine ⟨o :: os, .got l1, List.pairwise_cons.2 ⟨fun a ha => ((l3 a).1 ha).1, l2⟩, fun a => ?_⟩
      rw [List.mem_cons, l3, ← fin]
      constructor
      · rintro (rfl | ⟨h, h'⟩)
        · exact ⟨g3, hs, m, g2⟩
        · exact ⟨by omega, h'⟩
      · rintro ⟨h, hsa, p, h'⟩
        have := g4 a p h' h
        by_cases hao : a = o
        · exact .inl hao
        · exact .inr ⟨by omega, hsa, p, h'⟩
  · refine ⟨[], ?_, List.Pairwise.nil, fun a => ?_⟩
    · unfold firstData; rw [h1, g1]; exact .null
    · rw [← fin]
      constructor
      · intro h; simp at h
      · rintro ⟨h, _, p, h'⟩
        have := g2 a p h'
        omega

/-! ### Making and deleting records -/

theorem zeros_run {hb : Nat} : ∀ j {s : St} {l k : List (Nat × Nat)} {x : Nat × Nat} {a : Nat}, ARun hb s l k → x ∈ l →
    x.1 + 8 ≤ a → a + 8 * j ≤ x.1 + 8 * x.2 → ARun hb (zeros s a j) l k
  | 0, _, _, _, _, _, r, _, _, _ => r
  | j + 1, s, l, k, x, a, r, hx, h1, h2 =>
    zeros_run j (r.write (v := 0) hx h1 (by omega)) hx (by omega) (by omega)

theorem zeros_mem : ∀ j {s : St} {a b : Nat}, (zeros s a j).mem b = if a ≤ b ∧ b < a + 8 * j ∧ (b - a) % 8 = 0 then 0 else s.mem b
  | 0, s, a, b => by rw [if_neg (by omega)]; rfl
  | j + 1, s, a, b => by
    rw [zeros, zeros_mem j]
    by_cases h : b = a
    · subst h
      rw [if_neg (by omega), if_pos (by omega)]
      exact upd_same _ _ _
    · have hs : (s.store a 0).mem b = s.mem b := upd_ne _ _ h
      rw [hs]
      by_cases h1 : a + 8 ≤ b ∧ b < a + 8 + 8 * j ∧ (b - (a + 8)) % 8 = 0
      · rw [if_pos h1, if_pos (by omega)]
      · rw [if_neg h1, if_neg (by omega)]

/-- C43: a new record is a data record with empty fields; the other records keep their contents -/
theorem C43_create {hb : Nat} {s s' : St} {l k : List (Nat × Nat)} {o len : Nat} (r : ARun hb s l k) (hl : len < 2 ^ 36)
    (h : createRec hb s len = .ok o s') :
    ARun hb s' ((o, len + 3) :: l) k ∧ Kept (l ++ k) s s' ∧ s'.mem o / 8 = len + 3 ∧
      ∀ i, 1 ≤ i → i < len + 3 → s'.mem (o + 8 * i) = 0 := by
  unfold createRec at h
  rcases C42_alloc r (n := len + 3) (by omega) with ⟨o', s1, e, r1, K⟩ | ⟨s1, e, K⟩
  · rw [e] at h
    simp only [ARes.ok.injEq] at h
    obtain ⟨rfl, rfl⟩ := h
    have r2 := zeros_run (len + 2) (x := (o', len + 3)) (a := o' + 8) r1 (by simp) (by simp) (by simp; omega)
    have hap := (C42_objects r1).1
    refine ⟨r2, ?_, ((C42_objects r2).2 (o', len + 3) (by simp)).2.2.1, ?_⟩
    · intro x hx
      have ha : Apart (o', len + 3) x := (List.pairwise_cons.1 hap).1 x hx
      unfold Apart at ha
      simp only [] at ha
      obtain ⟨h1, h2⟩ := K x hx
      constructor
      · rw [zeros_mem, if_neg (by omega)]; exact h1
      · intro a ha1 ha2
        rw [zeros_mem, if_neg (by omega)]; exact h2 a ha1 ha2
    · intro i h1 h2
      rw [zeros_mem, if_pos (by omega)]
  · rw [e] at h; cases h

/-- C43: after a record without the mark was deleted, going through the records does not give it any more, and
gives all others -/
theorem C43_delete_partial {hb : Nat} {s : St} {l k : List (Nat × Nat)} (r : ARun hb s l k) {x : Nat × Nat}
    (hx : x ∈ l) (hbl : s.mem (x.1 + 16) = 0) (hm : s.mem x.1 % 4 = 0) :
    ∃ s' os os', deleteRec hb s x.1 = some (0, s') ∧ Listed (nextRaw s) (firstRaw s) os ∧
      Listed (nextRaw s') (firstRaw s') os' ∧ os' = os.filter (· ≠ x.1) := by
  obtain ⟨s', e, _⟩ := C42_free_partial r hx hm
  have r' := r.free hx (.inl hm) e
  obtain ⟨os, l1, l2, l3⟩ := C43_raw_records r
  obtain ⟨os', m1, m2, m3⟩ := C43_raw_records r'
  refine ⟨s', os, os', by rw [deleteRec, if_neg (by omega), e], l1, m1, ?_⟩
  obtain ⟨B, L, R⟩ := r.inv
  have key : ∀ o, o ∈ os' ↔ o ∈ os.filter (· ≠ x.1) := by
    intro o
    rw [m3, List.mem_filter, l3]
    simp only [ne_eq, decide_not, Bool.not_eq_eq_eq_not, Bool.not_true, decide_eq_false_iff_not]
    constructor
    · rintro ⟨n, h⟩
      have := (erase_append_mem R.keys hx (o, n)).1 h
      exact ⟨⟨n, this.2⟩, this.1⟩
    · rintro ⟨⟨n, h⟩, h'⟩
      exact ⟨n, (erase_append_mem R.keys hx (o, n)).2 ⟨h', h⟩⟩
  have p1 : os'.Pairwise (· ≤ ·) := m2.imp Nat.le_of_lt
  have p2 : (os.filter (· ≠ x.1)).Pairwise (· < ·) := l2.filter _
  have p3 : (os.filter (· ≠ x.1)).Pairwise (· ≤ ·) := p2.imp Nat.le_of_lt
  have hp : os'.Perm (os.filter (· ≠ x.1)) :=
    (List.perm_ext_iff_of_nodup (m2.imp Nat.ne_of_lt) (p2.imp Nat.ne_of_lt)).2 key
  exact hp.eq_of_pairwise (fun a b _ _ h1 h2 => Nat.le_antisymm h1 h2) p1 p3

/-! ### A deleted record that is still given -/

namespace RWit
def c1 := createRec 800 Wit.s0 1
def c2 := createRec 800 (aSt c1) 1
def c3 := createRec 800 (aSt c2) 1
def d1 : St := ((deleteRec 800 (aSt c3) 4128).getD (0, Wit.s0)).2
def d2 : Option (Int × St) := deleteRec 800 d1 4160
/-- the listing, as far as `f` records -/
def list (next : Nat → NRes) : Nat → NRes → Option (List Nat)
  | _, .null => some []
  | f + 1, .got o => (list next f (next o)).map (o :: ·)
  | _, _ => none
end RWit

theorem list_listed {next : Nat → NRes} : ∀ f {r l}, RWit.list next f r = some l → Listed next r l
  | f, .null, l, h => by
    have : RWit.list next f .null = some [] := by cases f <;> rfl
    rw [this] at h; cases h; exact .null
  | 0, .got o, l, h => by simp [RWit.list] at h
  | f + 1, .got o, l, h => by
    simp only [RWit.list, Option.map_eq_some_iff] at h
    obtain ⟨l', h1, rfl⟩ := h
    exact .got (list_listed f h1)
  | f, .err, l, h => by cases f <;> simp [RWit.list] at h
  | f, .ub, l, h => by cases f <;> simp [RWit.list] at h

open RWit in
/-- C43, what fails: of three new records the first two are deleted, each time 0 is returned, but going through the
records gives the second one as well as the third -/
theorem C43_deleted_still_given : ∃ s1 s2 s3 s4 s5 o1 o2 o3,
    createRec 800 Wit.s0 1 = .ok o1 s1 ∧ createRec 800 s1 1 = .ok o2 s2 ∧ createRec 800 s2 1 = .ok o3 s3 ∧
    deleteRec 800 s3 o1 = some (0, s4) ∧ deleteRec 800 s4 o2 = some (0, s5) ∧
    Listed (nextData s5) (firstData s5) [o2, o3] := by
  have e1 := aOk_eq (r := c1) (by decide +kernel)
  have e2 := aOk_eq (r := c2) (by decide +kernel)
  have e3 := aOk_eq (r := c3) (by decide +kernel)
  have o1 : aOff c1 = 4128 := by decide +kernel
  have o2 : aOff c2 = 4160 := by decide +kernel
  have o3 : aOff c3 = 4192 := by decide +kernel
  rw [o1] at e1
  rw [o2] at e2
  rw [o3] at e3
  have f1 : ∃ s, deleteRec 800 (aSt c3) 4128 = some (0, s) := by
    have h : (deleteRec 800 (aSt c3) 4128).map (·.1) = some 0 := by decide +kernel
    obtain ⟨⟨a, s⟩, h1, rfl⟩ := Option.map_eq_some_iff.1 h
    exact ⟨s, h1⟩
  obtain ⟨s4, h4⟩ := f1
  have hd1 : s4 = d1 := by rw [d1, h4]; rfl
  subst hd1
  have f2 : ∃ s, deleteRec 800 d1 4160 = some (0, s) := by
    have h : (deleteRec 800 d1 4160).map (·.1) = some 0 := by decide +kernel
    obtain ⟨⟨a, s⟩, h1, rfl⟩ := Option.map_eq_some_iff.1 h
    exact ⟨s, h1⟩
  obtain ⟨s5, h5⟩ := f2
  have hd2 : s5 = (d2.getD (0, Wit.s0)).2 := by rw [d2, h5]; rfl
  subst hd2
  exact ⟨_, _, _, _, _, 4128, 4160, 4192, e1, e2, e3, h4, h5, list_listed 3 (by decide +kernel)⟩

open RWit in
/-- records that meet the hypotheses of `C43_create` and `C43_delete_partial` -/
example : ∃ s l x, ARun 800 s l [] ∧ x ∈ l ∧ s.mem (x.1 + 16) = 0 ∧ s.mem x.1 % 4 = 0 ∧ l.length = 2 := by
  have e1 := aOk_eq (r := c1) (by decide +kernel)
  have e2 := aOk_eq (r := c2) (by decide +kernel)
  have r1 := (C43_create s0_run (by decide) e1).1
  have r2 := (C43_create r1 (by decide) e2).1
  exact ⟨_, _, (aOff c2, 4), r2, by simp, by decide +kernel, by decide +kernel, rfl⟩

end Gkc.Props
