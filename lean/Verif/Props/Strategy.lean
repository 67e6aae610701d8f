import Verif.StrategyLemmas
import Verif.Props.Order
import Verif.Props.Complete
/-
C63: choosing the literals to resolve upon loses no proofs.
-/
namespace Gkc.Props
open Gkc Gkc.Loop Gkc.Strategy

/-- Different constants of `S` have different words, and the comparison of constants of `S` agrees with some ranking. -/
def OneRanking (S : Const → Prop) (q : Par) : Prop :=
  (∀ c d, S c → S d → q.wd c = q.wd d → c = d) ∧
  ∃ rk : Const → Nat, (∀ c d, S c → S d → rk c = rk d → c = d) ∧ ∀ c d, S c → S d → c ≠ d → (constLess q c d = true ↔ rk c < rk d)

theorem OneRanking.ranked {S : Const → Prop} {q : Par} (h : OneRanking S q) : ∃ rk, Ranked S q rk := by
  classical
  obtain ⟨h1, rk, h2, h3⟩ := h
  refine ⟨fun c => if S c then 2 * rk c else 2 * (-(wdEx c)).toNat + 1, fun c d e => ?_, h1, fun c d hc hd hn => ?_⟩
  · by_cases hc : S c <;> by_cases hd : S d <;> simp only [hc, hd, if_true, if_false] at e
    · exact h2 c d hc hd (by omega)
    · omega
    · omega
    · have := wdEx_le c; have := wdEx_le d
      exact wdEx_inj c d (by omega)
  · rw [h3 c d hc hd hn, if_pos hc, if_pos hd]
    omega

/-- C63: where all constants are symbols, numbered differently, there is one ranking. -/
theorem C63_symbols_have_one_ranking {S : Const → Prop} {q : Par} (hw : ∀ c d, S c → S d → q.wd c = q.wd d → c = d)
    (hs : ∀ c, S c → ∃ n, q.uid c = some n) (hu : ∀ c d, S c → S d → q.uid c = q.uid d → c = d) : OneRanking S q := by
  refine ⟨hw, fun c => (q.uid c).getD 0, fun c d hc hd e => hu c d hc hd ?_, fun c d hc hd _ => ?_⟩
  · obtain ⟨n, e1⟩ := hs c hc
    obtain ⟨m, e2⟩ := hs d hd
    simp only [e1, e2, Option.getD_some] at e
    rw [e1, e2, e]
  · obtain ⟨n, e1⟩ := hs c hc
    obtain ⟨m, e2⟩ := hs d hd
    simp [constLess, e1, e2]

/-- the word of a number lies between the words of two symbols -/
def NumberBetween (S : Const → Prop) (q : Par) : Prop :=
  ∃ c n d, S c ∧ S n ∧ S d ∧ q.uid c ≠ none ∧ q.uid n = none ∧ q.uid d ≠ none ∧ q.wd c < q.wd n ∧ q.wd n < q.wd d

/-- C63: words and numbers of symbols being bounded, and symbols being numbered in the order of their words, there is one
ranking exactly if the word of no number is between the words of two symbols. -/
theorem C63_one_ranking_iff {S : Const → Prop} {q : Par} {K L : Int} {B : Nat} (hw : ∀ c d, S c → S d → q.wd c = q.wd d → c = d)
    (hK : ∀ c, S c → q.wd c ≤ K) (hL : ∀ c, S c → L ≤ q.wd c) (hB : ∀ c n, S c → q.uid c = some n → n < B)
    (hu : ∀ c d i j, S c → S d → q.uid c = some i → q.uid d = some j → (i < j ↔ q.wd c < q.wd d)) :
    OneRanking S q ↔ ¬ NumberBetween S q := by
  classical
  constructor
  · rintro ⟨_, rk, _, h⟩ ⟨c, n, d, hc, hn, hd, e1, e2, e3, l1, l2⟩
    obtain ⟨i, e1⟩ := Option.ne_none_iff_exists'.1 e1
    obtain ⟨j, e3⟩ := Option.ne_none_iff_exists'.1 e3
    have a1 := h n c hn hc (by rintro rfl; omega)
    have a2 := h d n hd hn (by rintro rfl; omega)
    have a3 := h c d hc hd (by rintro rfl; omega)
    simp only [constLess, e1, e2, e3, decide_eq_true_eq, gt_iff_lt] at a1 a2 a3
    rw [hu c d i j hc hd e1 e3] at a3
    omega
  · intro hno
    let M := (K - L).toNat + 1
    -- numbers with words above some symbol, symbols, other numbers
    let above : Const → Prop := fun n => ∃ d, S d ∧ q.uid d ≠ none ∧ q.wd d < q.wd n
    let rk : Const → Nat := fun c => match q.uid c with
      | some i => M + i
      | none => if above c then (K - q.wd c).toNat else M + B + (K - q.wd c).toNat
    have r1 : ∀ {c i}, q.uid c = some i → rk c = M + i := fun e => by simp only [rk, e]
    have r2 : ∀ {c}, q.uid c = none → above c → rk c = (K - q.wd c).toNat := fun e h => by simp only [rk, e, if_pos h]
    have r3 : ∀ {c}, q.uid c = none → ¬ above c → rk c = M + B + (K - q.wd c).toNat := fun e h => by simp only [rk, e, if_neg h]
    have key : ∀ c d, S c → S d → c ≠ d → (constLess q c d = true ↔ rk c < rk d) := by
      intro c d hc hd hn
      have b1 := hK c hc; have b2 := hK d hd; have b3 := hL c hc; have b4 := hL d hd
      have nw : q.wd c ≠ q.wd d := fun e => hn (hw c d hc hd e)
      cases e1 : q.uid c with
      | some i =>
        have := hB c i hc e1
        cases e2 : q.uid d with
        | some j => simp [constLess, e1, e2, r1 e1, r1 e2]
        | none =>
          simp only [constLess, e1, e2, decide_eq_true_eq, r1 e1]
          by_cases ha : above d
          · rw [r2 e2 ha]
            have : ¬ q.wd c > q.wd d := fun hgt => by
              obtain ⟨x, hx, ux, lx⟩ := ha
              exact hno ⟨x, d, c, hx, hd, hc, ux, e2, by simp [e1], lx, hgt⟩
            omega
          · rw [r3 e2 ha]
            have : ¬ q.wd c < q.wd d := fun hlt => ha ⟨c, hc, by simp [e1], hlt⟩
            omega
      | none =>
        cases e2 : q.uid d with
        | some j =>
          have := hB d j hd e2
          simp only [constLess, e1, e2, decide_eq_true_eq, r1 e2]
          by_cases ha : above c
          · rw [r2 e1 ha]
            have : ¬ q.wd d > q.wd c := fun hgt => by
              obtain ⟨x, hx, ux, lx⟩ := ha
              exact hno ⟨x, c, d, hx, hc, hd, ux, e1, by simp [e2], lx, hgt⟩
            omega
          · rw [r3 e1 ha]
            have : ¬ q.wd d < q.wd c := fun hlt => ha ⟨d, hd, by simp [e2], hlt⟩
            omega
        | none =>
          simp only [constLess, e1, e2, decide_eq_true_eq]
          by_cases ha : above c <;> by_cases hb : above d
          · rw [r2 e1 ha, r2 e2 hb]; omega
          · rw [r2 e1 ha, r3 e2 hb]
            have : ¬ q.wd c < q.wd d := fun hlt => by
              obtain ⟨x, hx, ux, lx⟩ := ha
              exact hb ⟨x, hx, ux, by omega⟩
            omega
          · rw [r3 e1 ha, r2 e2 hb]
            have : ¬ q.wd d < q.wd c := fun hlt => by
              obtain ⟨x, hx, ux, lx⟩ := hb
              exact ha ⟨x, hx, ux, by omega⟩
            omega
          · rw [r3 e1 ha, r3 e2 hb]; omega
    refine ⟨hw, rk, fun c d hc hd e => ?_, key⟩
    by_contra hn
    have k1 := key c d hc hd hn
    have k2 := key d c hd hc (Ne.symm hn)
    have nw : q.wd c ≠ q.wd d := fun e => hn (hw c d hc hd e)
    rw [e] at k1 k2
    simp only [lt_self_iff_false, iff_false, Bool.not_eq_true] at k1 k2
    have cases : ∀ x y : Const, constLess q x y = false → constLess q y x = false →
        (∃ i, q.uid x = some i ∧ q.uid y = some i) ∨ q.wd x = q.wd y := by
      intro x y h1 h2
      unfold constLess at h1 h2
      cases e1 : q.uid x <;> cases e2 : q.uid y <;> simp only [e1, e2, decide_eq_false_iff_not, gt_iff_lt] at h1 h2
      · exact .inr (by omega)
      · exact .inr (by omega)
      · exact .inr (by omega)
      · rename_i i j
        have e : i = j := by omega
        subst e
        exact .inl ⟨i, rfl, rfl⟩
    rcases cases c d k1 k2 with ⟨i, e1, e2⟩ | h
    · have h1 := hu c d i i hc hd e1 e2
      have h2 := hu d c i i hd hc e2 e1
      omega
    · exact nw h

/-- C63, missing: hardness_pref alone (see `C63_hardness_loses_proof`), answer literals and comparisons of
numbers, hyperresolution and query focus.  Otherwise every combination of the strategies knuthbendix_pref,
negative_pref, positive_pref and hardness_pref is a choice with which C61 and C62 hold. -/
theorem C63_choice_loses_nothing_partial {S : Const → Prop} {q : Par} (hq : OneRanking S q)
    (hh : q.hard = true → q.kb = true ∨ q.neg = true ∨ q.pos = true) : Selection S (resolvable q) := by
  obtain ⟨rk, hr⟩ := hq.ranked
  exact ⟨(resolvable_choice hr hh).mono fun C hC => ⟨hC.1, fun l hl => over_iff.2 (hC.2 l hl)⟩, fun C ren hC hi => resolvable_ren hC.1 hi⟩

/-- C63: a search with such a strategy that ends without a proof and without having thrown away a clause shows that the
clauses can all be true. -/
theorem C63_finished_means_satisfiable_partial {q : Par} {input : List (List Gkc.Lit)} (hq : OneRanking (Mentioned input) q)
    (hh : q.hard = true → q.kb = true ∨ q.neg = true ∨ q.pos = true) {o : Opt} (hs : o.sel = resolvable q)
    (h1 : ∀ c, 1 ≤ o.h c ∧ o.h c ≤ 999997) (h2 : ∀ c, (o.sort c).Perm c) (h3 : ∀ r, o.keep r = true → ∀ l ∈ r, leading l.atom ≤ 2147)
    (hin : PlainProblem input) {k : Nat} {s : LState}
    (h : Loop.run o k (Loop.start o input) = .finished s) (hl : s.lost = false) : Satisfiable input :=
  C61_finished_means_satisfiable ⟨h1, h2, h3, hs ▸ C63_choice_loses_nothing_partial hq hh⟩ hin h hl

/-- C63: a search with such a strategy in which the oldest clause is picked again and again finds a proof if the
clauses cannot all be true. -/
theorem C63_oldest_again_and_again_partial {q : Par} {input : List (List Gkc.Lit)} (hq : OneRanking (Mentioned input) q)
    (hh : q.hard = true → q.kb = true ∨ q.neg = true ∨ q.pos = true) {o : Nat → Opt} (hs : ∀ t, (o t).sel = resolvable q)
    (h1 : ∀ t c, 1 ≤ (o t).h c ∧ (o t).h c ≤ 999997) (h2 : ∀ t c, ((o t).sort c).Perm c)
    (h3 : ∀ t r, (o t).keep r = true → ∀ l ∈ r, leading l.atom ≤ 2147)
    (hin : PlainProblem input) (hu : ¬ Satisfiable input) (hn : Lossless o input)
    (hp : ∀ t, ∃ t', t ≤ t' ∧ ∀ q, (o t').pick q = 0) : ∃ t s, rounds o input t = .next s ∧ s.st.refuted = true :=
  C62_oldest_again_and_again (fun t => ⟨h1 t, h2 t, h3 t, (hs t) ▸ C63_choice_loses_nothing_partial hq hh⟩) (fun t => by rw [hs t, hs 0]) hin hu hn hp

/-- C63: with knuthbendix_pref the chosen literals are those for which no literal of the clause has a bigger atom in the
order of C21, taken with the ranking. -/
theorem C63_knuthbendix_chooses_largest {S : Const → Prop} {q : Par} {rk : Const → Nat} (h1 : ∀ c d, S c → S d → q.wd c = q.wd d → c = d)
    (h2 : ∀ c d, rk c = rk d → c = d) (h3 : ∀ c d, S c → S d → c ≠ d → (constLess q c d = true ↔ rk c < rk d)) (hk : q.kb = true)
    {C : List Gkc.Lit} (hC : Ordinary S C) {i : Nat} (hi : i < C.length) :
    resolvable q C i = true ↔ ∀ (k : Nat) (hk : k < C.length), orderEq (fun c => -(rk c : Int)) C[k].atom C[i].atom ≠ 1 := by
  have hr : Ranked S q rk := ⟨h2, h1, h3⟩
  have few : ∀ (k : Nat) (hk : k < C.length), Few (Term.vars C[k].atom) := fun k hk => (slim_few hC.1).sub (mem_clVars_at hk)
  unfold resolvable
  by_cases hl : C.length ≤ 1
  · rw [if_pos hl]
    refine ⟨fun _ k hk => ?_, fun _ => rfl⟩
    have : k = i := by omega
    subst this
    exact C21_irreflexive _ _
  · rw [if_neg hl, if_pos hk, kbSel_iff hr hC.1 (fun l hl => over_iff.2 (hC.2 l hl)) hi]
    refine forall_congr' fun k => forall_congr' fun hk => ?_
    rw [ne_eq, ← orderEq_gt (few k hk) (few i hi)]
    rfl

/-- C63: in a clause with literals of both signs negative_pref chooses exactly one literal, a negative one, and none of
the negative literals is harder; positive_pref without negative_pref the same with positive literals. -/
theorem C63_preferred_sign {q : Par} (hk : q.kb = false) {C : List Gkc.Lit} (hn : ∃ l ∈ C, l.neg = true) (hp : ∃ l ∈ C, l.neg = false) :
    (q.neg = true → ∃ (i : Nat) (h : i < C.length), C[i].neg = true ∧ (∀ l ∈ C, l.neg = true → hardness q l ≤ hardness q C[i]) ∧ ∀ j, resolvable q C j = true ↔ j = i) ∧
    (q.neg = false → q.pos = true → ∃ (i : Nat) (h : i < C.length), C[i].neg = false ∧ (∀ l ∈ C, l.neg = false → hardness q l ≤ hardness q C[i]) ∧ ∀ j, resolvable q C j = true ↔ j = i) := by
  have hl : ¬ C.length ≤ 1 := by
    obtain ⟨l, hl, e⟩ := hn
    obtain ⟨l', hl', e'⟩ := hp
    obtain ⟨i, hi, rfl⟩ := List.getElem_of_mem hl
    obtain ⟨j, hj, rfl⟩ := List.getElem_of_mem hl'
    have : i ≠ j := by rintro rfl; rw [e] at e'; cases e'
    omega
  have n1 : C.filter (fun l => l.neg) ≠ [] := filter_ne.2 hn
  have n2 : C.filter (fun l => !l.neg) ≠ [] := filter_ne.2 (by simpa using hp)
  have once : ∀ (ok : Gkc.Lit → Bool) (mx : Int) (D : List Gkc.Lit) (b : Bool),
      (b = true → ∀ j : Nat, ((pickFirst q ok mx b D)[j]?).getD false = false) ∧
      ∀ i j : Nat, ((pickFirst q ok mx b D)[i]?).getD false = true → ((pickFirst q ok mx b D)[j]?).getD false = true → i = j := by
    intro ok mx D
    induction D with
    | nil => intro b; simp [pickFirst]
    | cons l D ih =>
      intro b
      have shift : ∀ b, (b = true → ∀ j : Nat, (((false :: pickFirst q ok mx b D))[j]?).getD false = false) ∧
          ∀ i j : Nat, (((false :: pickFirst q ok mx b D))[i]?).getD false = true → (((false :: pickFirst q ok mx b D))[j]?).getD false = true → i = j := by
        intro b
        refine ⟨fun hb j => ?_, fun i j h1 h2 => ?_⟩
        · cases j with
          | zero => simp
          | succ j => simpa using (ih b).1 hb j
        · cases i with
          | zero => simp at h1
          | succ i =>
            cases j with
            | zero => simp at h2
            | succ j =>
              have := (ih b).2 i j (by simpa using h1) (by simpa using h2)
              omega
      simp only [pickFirst]
      split
      · exact shift b
      · split
        · exact shift b
        · split
          · rename_i hb
            refine ⟨fun e => by simp [e] at hb, fun i j h1 h2 => ?_⟩
            have t := (ih true).1 rfl
            cases i with
            | zero =>
              cases j with
              | zero => rfl
              | succ j =>
                have h2 : ((pickFirst q ok mx true D)[j]?).getD false = true := by simpa using h2
                rw [t j] at h2; cases h2
            | succ i =>
              have h1 : ((pickFirst q ok mx true D)[i]?).getD false = true := by simpa using h1
              rw [t i] at h1; cases h1
          · exact shift b
  refine ⟨fun hneg => ?_, fun hneg hpos => ?_⟩
  · obtain ⟨i, hi, e1, e2⟩ := pick_chosen (q := q) n1
    have e : ∀ j, resolvable q C j = ((pickFirst q (fun l => l.neg) (maxHardness q (C.filter fun l => l.neg)) false C)[j]?).getD false := by
      intro j
      unfold resolvable
      rw [if_neg hl, if_neg (by simp [hk])]
      simp only
      rw [if_neg (by simp only [Bool.and_eq_true, List.isEmpty_iff]; exact fun h => n1 h.1),
        if_neg (by simp only [Bool.and_eq_true, List.isEmpty_iff]; exact fun h => n2 h.1), if_pos hneg]
    refine ⟨i, hi, e2, fun l hl hln => (maxHardness_ge (List.mem_filter.2 ⟨hl, hln⟩)).trans (pickFirst_hard hi e1), fun j => ?_⟩
    rw [e j]
    exact ⟨fun h => (once _ _ C false).2 j i h e1, fun h => h ▸ e1⟩
  · obtain ⟨i, hi, e1, e2⟩ := pick_chosen (q := q) n2
    have e : ∀ j, resolvable q C j = ((pickFirst q (fun l => !l.neg) (maxHardness q (C.filter fun l => !l.neg)) false C)[j]?).getD false := by
      intro j
      unfold resolvable
      rw [if_neg hl, if_neg (by simp [hk])]
      simp only
      rw [if_neg (by simp only [Bool.and_eq_true, List.isEmpty_iff]; exact fun h => n1 h.1),
        if_neg (by simp only [Bool.and_eq_true, List.isEmpty_iff]; exact fun h => n2 h.1), if_neg (by simp [hneg]), if_pos hpos]
    refine ⟨i, hi, by simpa using e2, fun l hl hln => (maxHardness_ge (List.mem_filter.2 ⟨hl, by simpa using hln⟩)).trans (pickFirst_hard hi e1), fun j => ?_⟩
    rw [e j]
    exact ⟨fun h => (once _ _ C false).2 j i h e1, fun h => h ▸ e1⟩

namespace Sy

/-- flags; names and strings are numbered in the order of their words -/
def par (kb neg pos hard : Bool) : Par where
  kb := kb
  neg := neg
  pos := pos
  hard := hard
  uid := fun c => if c.isLongstr then some (-(wdEx c)).toNat else none
  wd := fun c => -(wdEx c)
  pc := fun _ => 1
  nc := fun _ => 1

theorem par_one {S : Const → Prop} (kb neg pos hard : Bool) (hS : ∀ c, S c → c.isLongstr = true) : OneRanking S (par kb neg pos hard) := by
  refine C63_symbols_have_one_ranking (fun c d _ _ e => ?_) (fun c hc => ?_) fun c d hc hd e => ?_
  · exact wdEx_inj c d (by simpa [par] using e)
  · simp [par, hS c hc]
  · have e : (-(wdEx c)).toNat = (-(wdEx d)).toNat := by simpa [par, hS c hc, hS d hd] using e
    have := wdEx_le c; have := wdEx_le d
    exact wdEx_inj c d (by omega)

/-- two symbols and a number that is not between them: the hypotheses of `C63_one_ranking_iff` are met and there is one ranking -/
example : let S := fun c => c ∈ [Const.sym "b", .sym "c", .int 1000]
    let q := par true false false false
    (∀ c d, S c → S d → q.wd c = q.wd d → c = d) ∧ (∀ c, S c → q.wd c ≤ 100000) ∧ (∀ c, S c → 0 ≤ q.wd c) ∧
    (∀ c n, S c → q.uid c = some n → n < 100000) ∧ (∀ c d i j, S c → S d → q.uid c = some i → q.uid d = some j → (i < j ↔ q.wd c < q.wd d)) ∧
    ¬ NumberBetween S q ∧ ∃ c d, S c ∧ S d ∧ q.uid c = none ∧ q.uid d ≠ none := by
  simp only [List.mem_cons, List.not_mem_nil, or_false]
  refine ⟨fun c d _ _ e => wdEx_inj c d (by simpa [par] using e), ?_, ?_, ?_, ?_, ?_, .int 1000, .sym "b", by simp, by simp, by decide +kernel, by decide +kernel⟩
  · rintro c (rfl | rfl | rfl) <;> decide +kernel
  · rintro c (rfl | rfl | rfl) <;> decide +kernel
  · rintro c n (rfl | rfl | rfl) e
    · have : (par true false false false).uid (.sym "b") = some 596 := by decide +kernel
      rw [this] at e
      cases e
      decide
    · have : (par true false false false).uid (.sym "c") = some 602 := by decide +kernel
      rw [this] at e
      cases e
      decide
    · have : (par true false false false).uid (.int 1000) = none := by decide +kernel
      simp_all
  · intro c d i j hc hd e1 e2
    have := wdEx_le c; have := wdEx_le d
    have f1 : i = (-(wdEx c)).toNat := by
      simp only [par] at e1
      split at e1 <;> cases e1
      rfl
    have f2 : j = (-(wdEx d)).toNat := by
      simp only [par] at e2
      split at e2 <;> cases e2
      rfl
    show i < j ↔ -(wdEx c) < -(wdEx d)
    omega
  · rintro ⟨c, n, d, hc, hn, hd, e1, e2, e3, l1, l2⟩
    have k1 : (par true false false false).uid (.sym "b") ≠ none := by decide +kernel
    have k2 : (par true false false false).uid (.sym "c") ≠ none := by decide +kernel
    rcases hn with rfl | rfl | rfl
    · exact k1 e2
    · exact k2 e2
    · have w1 : (par true false false false).wd (.sym "b") < (par true false false false).wd (.int 1000) := by decide +kernel
      have w2 : (par true false false false).wd (.sym "c") < (par true false false false).wd (.int 1000) := by decide +kernel
      rcases hd with rfl | rfl | rfl <;> omega

theorem mentioned_of {input : List (List Gkc.Lit)} (h : (input.all fun C => C.all fun l => (names l.atom).all Const.isLongstr) = true) :
    ∀ c, Mentioned input c → c.isLongstr = true := by
  rintro c ⟨C, hC, l, hl, hc⟩
  exact List.all_eq_true.1 (List.all_eq_true.1 (List.all_eq_true.1 h C hC) l hl) c hc

def opts (q : Par) : Opt := { Cp.opts 100 with sel := resolvable q }

/-- the hypotheses are met by a search: negative literals are preferred -/
example : OneRanking (Mentioned Cp.consistent) (par false true false false) ∧ PlainProblem Cp.consistent ∧
    ∃ s, Loop.run (opts (par false true false false)) 20 (Loop.start (opts (par false true false false)) Cp.consistent) = .finished s ∧ s.lost = false :=
  ⟨par_one _ _ _ _ (mentioned_of (by decide +kernel)), Cp.plain_of (by decide +kernel), Cp.isFinished_iff (by decide +kernel)⟩

/-- a proof is found with each of the strategies -/
example : (Cp.isProof (Loop.run (opts (par true false false false)) 20 (Loop.start (opts (par true false false false)) Cp.factoring)) &&
    Cp.isProof (Loop.run (opts (par false true false false)) 20 (Loop.start (opts (par false true false false)) Cp.factoring)) &&
    Cp.isProof (Loop.run (opts (par false false true true)) 20 (Loop.start (opts (par false false true true)) Cp.factoring))) = true := by decide +kernel

/-- `p(a) | -q(f(a)) | -p(f(b))`: the second literal is the largest, and also the first of the hardest negative ones -/
example : let C := [Cp.pp "p" Cp.a, Cp.nn "q" (Cp.f Cp.a), Cp.nn "p" (Cp.f Cp.b)]
    Ordinary (fun c => c.isLongstr = true) C ∧ (List.range 3).map (resolvable (par true false false false) C) = [false, true, false] ∧
    (List.range 3).map (resolvable (par false true false false) C) = [false, true, false] ∧
    (List.range 3).map (resolvable (par false false true false) C) = [true, false, false] := by
  refine ⟨⟨⟨fun l hl => ?_, [], by simp, ?_⟩, fun l hl c hc => ?_⟩, by decide +kernel, by decide +kernel, by decide +kernel⟩
  · simp only [List.mem_cons, List.not_mem_nil, or_false] at hl
    rcases hl with rfl | rfl | rfl <;> exact ⟨_, _, rfl⟩
  · intro l hl v hv
    simp only [List.mem_cons, List.not_mem_nil, or_false] at hl
    rcases hl with rfl | rfl | rfl <;> simp [Cp.pp, Cp.nn, Cp.f, Cp.a, Cp.b] at hv
  · exact mentioned_of (input := [[Cp.pp "p" Cp.a, Cp.nn "q" (Cp.f Cp.a), Cp.nn "p" (Cp.f Cp.b)]]) (by decide +kernel) c ⟨_, List.mem_singleton.2 rfl, l, hl, hc⟩

def P (s : Bool) (t : Term) : Gkc.Lit := ⟨s, .app (.sym "p") [t, Cp.b, Cp.b, Cp.b]⟩
def Q (s : Bool) (t : Term) : Gkc.Lit := ⟨s, .app (.sym "q") [t, t, t]⟩

/-- `p(X,b,b,b) | q(X,X,X)`, `-p(X,b,b,b) | -q(X,X,X)`, `p(f(X),b,b,b) | -q(f(X),f(X),f(X))`, `-p(f(X),b,b,b) | q(f(X),f(X),f(X))` -/
def four : List (List Gkc.Lit) :=
  [[P false (.var 0), Q false (.var 0)], [P true (.var 0), Q true (.var 0)],
   [P false (Cp.f (.var 0)), Q true (Cp.f (.var 0))], [P true (Cp.f (.var 0)), Q false (Cp.f (.var 0))]]

/-- `r(b) | r(50) | r(c)`, `-r(X) | q(X)`, `-r(X) | -q(X)` -/
def mixed : List (List Gkc.Lit) :=
  [[Cp.pp "r" Cp.b, Cp.pp "r" (.const (.int 50)), Cp.pp "r" (.const (.sym "c"))], [Cp.nn "r" (.var 0), Cp.pp "q" (.var 0)], [Cp.nn "r" (.var 0), Cp.nn "q" (.var 0)]]

theorem unsat_of {input : List (List Gkc.Lit)} (hin : PlainProblem input) (h : Cp.isProof (Loop.run (Cp.opts 100) 20 (Loop.start (Cp.opts 100) input)) = true) : ¬ Satisfiable input := by
  obtain ⟨s', h', hr⟩ := Cp.isProof_iff h
  rintro ⟨M, hM, all⟩
  obtain ⟨a, _⟩ := hM.two
  have : Nonempty M.D := ⟨a⟩
  obtain ⟨C, hC, hn⟩ := C61_proof_means_unsatisfiable (Cp.opts_fit (S := fun _ => True) (lim := 100) (by omega)).sort hin h' hr M
  exact hn (all C hC)

end Sy

/-- C63 fails for hardness_pref alone: the search ends without a proof though nothing is thrown away and the
clauses cannot all be true. -/
theorem C63_hardness_loses_proof : ∃ (q : Par) (o : Opt) (input : List (List Gkc.Lit)) (k : Nat) (s : LState),
    OneRanking (Mentioned input) q ∧ q.hard = true ∧ o.sel = resolvable q ∧ (∀ c, 1 ≤ o.h c ∧ o.h c ≤ 999997) ∧ (∀ c, (o.sort c).Perm c) ∧
    (∀ r, o.keep r = true → ∀ l ∈ r, leading l.atom ≤ 2147) ∧ PlainProblem input ∧
    Loop.run o k (Loop.start o input) = .finished s ∧ s.lost = false ∧ ¬ Satisfiable input := by
  obtain ⟨s, h, hl⟩ := Cp.isFinished_iff (r := Loop.run (Sy.opts (Sy.par false false false true)) 20 (Loop.start (Sy.opts (Sy.par false false false true)) Sy.four))
    (b := false) (by decide +kernel)
  have hpl : PlainProblem Sy.four := Cp.plain_of (by decide +kernel)
  have hf := Cp.opts_fit (S := fun _ => True) (lim := 100) (by omega)
  exact ⟨_, Sy.opts (Sy.par false false false true), Sy.four, 20, s, Sy.par_one _ _ _ _ (Sy.mentioned_of (by decide +kernel)), rfl, rfl, hf.hash, hf.sort, hf.keep, hpl, h, hl,
    Sy.unsat_of hpl (by decide +kernel)⟩

/-- C63 needs one ranking.  Symbols are numbered in the order of their addresses and smaller numbers are smaller, but a
symbol and a number are compared by their words, where the larger word is smaller.  So where the word of a number is between those of two
symbols the three compare in a circle, and with knuthbendix_pref a clause can have no chosen literal at all: the search ends without a proof. -/
theorem C63_number_between_symbols_loses_proof : ∃ (q : Par) (o : Opt) (input : List (List Gkc.Lit)) (k : Nat) (s : LState),
    (∀ c d, q.wd c = q.wd d → c = d) ∧ (∀ c, (q.uid c).isSome = c.isLongstr) ∧
    (∀ c d i j, q.uid c = some i → q.uid d = some j → (i < j ↔ q.wd c < q.wd d)) ∧ NumberBetween (Mentioned input) q ∧
    q.kb = true ∧ (∃ C ∈ input, C ≠ [] ∧ ∀ i < C.length, resolvable q C i = false) ∧
    o.sel = resolvable q ∧ (∀ c, 1 ≤ o.h c ∧ o.h c ≤ 999997) ∧ (∀ c, (o.sort c).Perm c) ∧
    (∀ r, o.keep r = true → ∀ l ∈ r, leading l.atom ≤ 2147) ∧ PlainProblem input ∧
    Loop.run o k (Loop.start o input) = .finished s ∧ s.lost = false ∧ ¬ Satisfiable input := by
  obtain ⟨s, h, hl⟩ := Cp.isFinished_iff (r := Loop.run (Sy.opts (Sy.par true false false false)) 20 (Loop.start (Sy.opts (Sy.par true false false false)) Sy.mixed))
    (b := false) (by decide +kernel)
  have hpl : PlainProblem Sy.mixed := Cp.plain_of (by decide +kernel)
  have hf := Cp.opts_fit (S := fun _ => True) (lim := 100) (by omega)
  refine ⟨Sy.par true false false false, Sy.opts (Sy.par true false false false), Sy.mixed, 20, s, fun c d e => wdEx_inj c d (by simpa [Sy.par] using e), ?_, ?_, ?_, rfl,
    ⟨_, List.mem_cons_self, by simp, by decide +kernel⟩, rfl, hf.hash, hf.sort, hf.keep, hpl, h, hl, Sy.unsat_of hpl (by decide +kernel)⟩
  · intro c
    cases c <;> rfl
  · intro c d i j e1 e2
    have := wdEx_le c; have := wdEx_le d
    have f1 : i = (-(wdEx c)).toNat := by
      simp only [Sy.par] at e1
      split at e1 <;> cases e1
      rfl
    have f2 : j = (-(wdEx d)).toNat := by
      simp only [Sy.par] at e2
      split at e2 <;> cases e2
      rfl
    show i < j ↔ -(wdEx c) < -(wdEx d)
    omega
  · exact ⟨.sym "b", .int 50, .sym "c", ⟨_, List.mem_cons_self, _, List.mem_cons_self, by decide +kernel⟩,
      ⟨_, List.mem_cons_self, _, List.mem_cons_of_mem _ List.mem_cons_self, by decide +kernel⟩,
      ⟨_, List.mem_cons_self, _, List.mem_cons_of_mem _ (List.mem_cons_of_mem _ List.mem_cons_self), by decide +kernel⟩,
      by decide +kernel, by decide +kernel, by decide +kernel, by decide +kernel, by decide +kernel⟩

end Gkc.Props
