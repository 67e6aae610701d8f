import Verif.StrongDup
import Verif.DeriveLemmas
import Verif.Props.Unify
/- Property theorems C17: strong duplicate removal. -/
namespace Gkc
open Term

/-! ### marks -/

theorem foldl_mark (vs : List Nat) : ∀ m : Nat → Mark, ∀ v, vs.foldl markVar m v = .once ↔
    (m v = .no ∧ vs.count v = 1) ∨ (m v = .once ∧ vs.count v = 0) := by
  induction vs with
  | nil => intro m v; cases h : m v <;> simp [h]
  | cons a vs ih =>
    intro m v
    simp only [List.foldl_cons, ih, markVar, List.count_cons]
    by_cases hv : v = a
    · subst hv
      cases h : m v <;> simp <;> omega
    · have : ¬ a = v := fun h => hv h.symm
      simp [hv, this]

theorem markAll_once (cl : List Lit) (v : Nat) :
    markAll cl v = .once ↔ (cl.flatMap (fun l => vars l.atom)).count v = 1 := by
  simp [markAll, foldl_mark]

/-- `l` becomes `k` by replacing marked variables -/
def GenBy (u : Nat → Prop) (l k : Lit) : Prop :=
  l.neg = k.neg ∧ ∃ σ : Nat → Term, (∀ v, ¬ u v → σ v = .var v) ∧ subst σ l.atom = k.atom

theorem GenBy.refl (u : Nat → Prop) (l : Lit) : GenBy u l l := ⟨rfl, .var, fun _ _ => rfl, subst_id _⟩

theorem GenBy.trans {u : Nat → Prop} {a b c : Lit} (h1 : GenBy u a b) (h2 : GenBy u b c) : GenBy u a c := by
  obtain ⟨n1, σ, hσ, e1⟩ := h1
  obtain ⟨n2, τ, hτ, e2⟩ := h2
  refine ⟨n1.trans n2, fun v => subst τ (σ v), ?_, ?_⟩
  · intro v hv
    simp only [hσ v hv, subst_var, hτ v hv]
  · rw [← e2, ← e1, subst_subst]

/-! ### the matcher -/

mutual
theorem noMatch_sound (m : Nat → Mark) : ∀ (x y : Term), (∀ v, m v = .once → (vars x).count v ≤ 1) →
    noMatch m x y = .matched → ∃ σ : Nat → Term, (∀ v, m v ≠ .once → σ v = .var v) ∧ subst σ x = y
  | .var v, y, _, h => by
    simp only [noMatch] at h
    split at h
    · rename_i hm
      refine ⟨fun w => if w = v then y else .var w, ?_, by simp⟩
      intro w hw
      have : w ≠ v := by rintro rfl; exact hw hm
      simp [this]
    · split at h
      · rename_i he
        exact ⟨.var, fun _ _ => rfl, by rw [subst_id]; exact (eqTerm_iff _ _).1 he⟩
      · cases h
  | .const c, y, _, h => by
    simp only [noMatch] at h
    split at h
    · rename_i he
      exact ⟨.var, fun _ _ => rfl, by rw [subst_id]; exact (eqTerm_iff _ _).1 he⟩
    · split at h <;> cases h
  | .app f as, .var _, _, h => by simp [noMatch] at h
  | .app f as, .const _, _, h => by simp [noMatch] at h
  | .app f as, .app g bs, hu, h => by
    simp only [noMatch] at h
    split at h
    · cases h
    · rename_i hl
      split at h
      · cases h
      · rename_i hf
        obtain ⟨σ, h1, h2⟩ := noMatchL_sound m as bs (by simpa using hl) (by simpa using hu) h
        refine ⟨σ, h1, ?_⟩
        have hf' : f = g := Classical.byContradiction hf
        rw [subst_app, h2, hf']
theorem noMatchL_sound (m : Nat → Mark) : ∀ (as bs : List Term), as.length = bs.length →
    (∀ v, m v = .once → (varsL as).count v ≤ 1) → noMatchL m as bs = .matched →
    ∃ σ : Nat → Term, (∀ v, m v ≠ .once → σ v = .var v) ∧ as.map (subst σ) = bs
  | [], [], _, _, _ => ⟨.var, fun _ _ => rfl, rfl⟩
  | [], _ :: _, h, _, _ => by simp at h
  | _ :: _, [], h, _, _ => by simp at h
  | a :: as, b :: bs, hl, hu, h => by
    simp only [noMatchL] at h
    split at h
    · rename_i ha
      obtain ⟨σ1, p1, e1⟩ := noMatch_sound m a b (fun v hv => by
        have := hu v hv; simp only [varsL_cons, List.count_append] at this; omega) ha
      obtain ⟨σ2, p2, e2⟩ := noMatchL_sound m as bs (by simpa using hl) (fun v hv => by
        have := hu v hv; simp only [varsL_cons, List.count_append] at this; omega) h
      refine ⟨fun v => if v ∈ vars a then σ1 v else σ2 v, ?_, ?_⟩
      · intro v hv
        simp only [p1 v hv, p2 v hv, ite_self]
      · simp only [List.map_cons, List.cons.injEq]
        constructor
        · rw [← e1]
          exact subst_congr (fun v hv => by simp [hv])
        · rw [← e2]
          apply List.map_congr_left
          intro t ht
          apply subst_congr
          intro v hv
          split
          · rename_i hva
            by_cases hm : m v = .once
            · have h1 : 0 < (vars a).count v := List.count_pos_iff.2 hva
              have h2 : 0 < (varsL as).count v := List.count_pos_iff.2 (mem_varsL.2 ⟨t, ht, hv⟩)
              have := hu v hm
              simp only [varsL_cons, List.count_append] at this
              omega
            · rw [p1 v hm, p2 v hm]
          · rfl
    · rename_i hne
      exact absurd h hne
end

/-! ### the loops -/

/-- `v` occurs exactly once in the clause -/
def OccursOnce (cl : List Lit) (v : Nat) : Prop := (cl.flatMap (fun l => vars l.atom)).count v = 1

theorem litAt_mem {cl : List Lit} {i : Nat} (h : i < cl.length) : litAt cl i ∈ cl := by
  simp [litAt, List.getD, List.getElem?_eq_getElem h]

theorem count_le_flatMap {cl : List Lit} {l : Lit} (h : l ∈ cl) (v : Nat) :
    (vars l.atom).count v ≤ (cl.flatMap (fun l => vars l.atom)).count v := by
  induction cl with
  | nil => cases h
  | cons k cl ih =>
    simp only [List.flatMap_cons, List.count_append]
    rcases List.mem_cons.1 h with rfl | h
    · omega
    · have := ih h; omega

theorem noMatch_genBy {cl : List Lit} {x y : Nat} (hx : x < cl.length)
    (hs : (litAt cl x).neg = (litAt cl y).neg)
    (h : noMatch (markAll cl) (litAt cl x).atom (litAt cl y).atom = .matched) :
    GenBy (OccursOnce cl) (litAt cl x) (litAt cl y) := by
  obtain ⟨σ, h1, h2⟩ := noMatch_sound _ _ _ (fun v hv => by
    have := count_le_flatMap (litAt_mem hx) v
    rw [(markAll_once cl v).1 hv] at this; exact this) h
  refine ⟨hs, σ, fun v hv => h1 v (fun hm => hv ((markAll_once cl v).1 hm)), h2⟩

/-- blocked literals lead to kept ones -/
def DupInv (cl : List Lit) (lim : Nat) (bl : Nat → Bool) : Prop :=
  ∀ i, bl i = true → i < lim ∧ ∃ k < lim, bl k = false ∧ GenBy (OccursOnce cl) (litAt cl i) (litAt cl k)

/-- the same within the inner loop for `x`, before step `y` -/
structure DupInv' (cl : List Lit) (lim x y : Nat) (bl : Nat → Bool) : Prop where
  other : ∀ i, bl i = true → i ≠ x → i < lim ∧ ∃ k < lim, (bl k = false ∨ k = x) ∧
    GenBy (OccursOnce cl) (litAt cl i) (litAt cl k)
  self : bl x = true → ∃ k, k < y ∧ k < lim ∧ bl k = false ∧ GenBy (OccursOnce cl) (litAt cl x) (litAt cl k)

theorem dupStep_inv {cl : List Lit} {lim x y : Nat} {bl bl' : Nat → Bool} (hlim : lim ≤ cl.length)
    (hx : x < lim) (hy : y < lim) (hxy : x < y) (hi : DupInv' cl lim x y bl)
    (h : dupStep (markAll cl) cl x y bl = some bl') : DupInv' cl lim x (y + 1) bl' := by
  have weak : DupInv' cl lim x (y + 1) bl :=
    ⟨hi.other, fun hb => by obtain ⟨k, h1, h2, h3⟩ := hi.self hb; exact ⟨k, by omega, h2, h3⟩⟩
  simp only [dupStep] at h
  split at h
  · cases h; exact weak
  · rename_i hby
    have hby : bl y = false := by simpa using hby
    split at h
    · rename_i hs
      have hs : (litAt cl x).neg = (litAt cl y).neg := by simpa using hs
      split at h
      · rename_i hm
        simp only [Option.some.injEq] at h
        subst h
        have hg := noMatch_genBy (by omega) hs hm
        refine ⟨?_, ?_⟩
        · intro i hb hix
          simp only [hix, if_false] at hb
          obtain ⟨h1, k, hk, h2, h3⟩ := hi.other i hb hix
          refine ⟨h1, k, hk, ?_, h3⟩
          by_cases e : k = x
          · exact .inr e
          · rcases h2 with h2 | h2
            · left; simp [e, h2]
            · exact absurd h2 e
        · intro _
          refine ⟨y, by omega, hy, ?_, hg⟩
          have : y ≠ x := by omega
          simp [this, hby]
      · split at h
        · rename_i hm
          simp only [Option.some.injEq] at h
          subst h
          have hg := noMatch_genBy (x := y) (by omega) hs.symm hm
          refine ⟨?_, ?_⟩
          · intro i hb hix
            by_cases hiy : i = y
            · subst hiy
              exact ⟨hy, x, hx, .inr rfl, hg⟩
            · simp only [hiy, if_false] at hb
              obtain ⟨h1, k, hk, h2, h3⟩ := hi.other i hb hix
              by_cases e : k = y
              · subst e
                exact ⟨h1, x, hx, .inr rfl, h3.trans hg⟩
              · refine ⟨h1, k, hk, ?_, h3⟩
                rcases h2 with h2 | h2
                · left; simp [e, h2]
                · exact .inr h2
          · intro hb
            have hxy' : x ≠ y := by omega
            simp only [hxy', if_false] at hb
            obtain ⟨k, h1, h2, h3, h4⟩ := hi.self hb
            refine ⟨k, by omega, h2, ?_, h4⟩
            have : k ≠ y := by omega
            simp [this, h3]
        · cases h
        · cases h; exact weak
      · cases h; exact weak
      · cases h
    · cases h; exact weak

theorem dupInner_inv {cl : List Lit} {lim x : Nat} (hlim : lim ≤ cl.length) (hx : x < lim) :
    ∀ k y bl bl', y + k = lim → x < y → DupInv' cl lim x y bl →
      dupInner (markAll cl) cl x k y bl = some bl' → DupInv' cl lim x lim bl' := by
  intro k
  induction k with
  | zero =>
    intro y bl bl' e _ hi h
    simp only [dupInner, Option.some.injEq] at h
    subst h
    have : y = lim := by omega
    subst this; exact hi
  | succ k ih =>
    intro y bl bl' e hxy hi h
    simp only [dupInner] at h
    split at h
    · cases h
    · rename_i bl1 e1
      exact ih (y + 1) bl1 bl' (by omega) (by omega) (dupStep_inv hlim hx (by omega) hxy hi e1) h

theorem dupOuter_inv {cl : List Lit} {lim : Nat} (hlim : lim ≤ cl.length) :
    ∀ k x bl bl', x + k = lim → DupInv cl lim bl → dupOuter (markAll cl) cl lim k x bl = some bl' →
      DupInv cl lim bl' := by
  intro k
  induction k with
  | zero =>
    intro x bl bl' _ hi h
    simp only [dupOuter, Option.some.injEq] at h
    subst h; exact hi
  | succ k ih =>
    intro x bl bl' e hi h
    simp only [dupOuter] at h
    split at h
    · exact ih (x + 1) bl bl' (by omega) hi h
    · rename_i hbx
      have hbx : bl x = false := by simpa using hbx
      split at h
      · cases h
      · rename_i bl1 e1
        have h0 : DupInv' cl lim x (x + 1) bl := by
          refine ⟨?_, ?_⟩
          · intro i hb _
            obtain ⟨h1, k, hk, h2, h3⟩ := hi i hb
            exact ⟨h1, k, hk, .inl h2, h3⟩
          · intro hb; rw [hbx] at hb; cases hb
        have h1 := dupInner_inv hlim (show x < lim by omega) _ (x + 1) bl bl1 (by omega) (by omega) h0 e1
        refine ih (x + 1) bl1 bl' (by omega) ?_ h
        intro i hb
        by_cases hix : i = x
        · subst hix
          obtain ⟨k, _, h2, h3, h4⟩ := h1.self hb
          exact ⟨by omega, k, h2, h3, h4⟩
        · obtain ⟨hl, k, hk, h2, h3⟩ := h1.other i hb hix
          refine ⟨hl, ?_⟩
          rcases h2 with h2 | rfl
          · exact ⟨k, hk, h2, h3⟩
          · cases hbk : bl1 k with
            | false => exact ⟨k, hk, hbk, h3⟩
            | true =>
              obtain ⟨k', _, h5, h6, h7⟩ := h1.self hbk
              exact ⟨k', h5, h6, h3.trans h7⟩

theorem mem_compact {bl : Nat → Bool} {l : Lit} : ∀ {cl : List Lit} {i : Nat}, l ∈ compact bl i cl ↔
    ∃ j, cl[j]? = some l ∧ ¬ (i + j < 40 ∧ bl (i + j) = true) := by
  intro cl
  induction cl with
  | nil => intro i; simp [compact]
  | cons k cl ih =>
    intro i
    simp only [compact]
    split
    · rename_i hb
      simp only [Bool.and_eq_true, decide_eq_true_eq] at hb
      rw [ih]
      constructor
      · rintro ⟨j, h1, h2⟩
        exact ⟨j + 1, by simpa using h1, by rw [show i + (j + 1) = i + 1 + j by omega]; exact h2⟩
      · rintro ⟨j, h1, h2⟩
        cases j with
        | zero => exact absurd hb h2
        | succ j => exact ⟨j, by simpa using h1, by rw [show i + 1 + j = i + (j + 1) by omega]; exact h2⟩
    · rename_i hb
      simp only [Bool.and_eq_true, decide_eq_true_eq] at hb
      rw [List.mem_cons, ih]
      constructor
      · rintro (rfl | ⟨j, h1, h2⟩)
        · exact ⟨0, by simp, hb⟩
        · exact ⟨j + 1, by simpa using h1, by rw [show i + (j + 1) = i + 1 + j by omega]; exact h2⟩
      · rintro ⟨j, h1, h2⟩
        cases j with
        | zero => left; simpa using h1.symm
        | succ j => exact .inr ⟨j, by simpa using h1, by rw [show i + 1 + j = i + (j + 1) by omega]; exact h2⟩

theorem compact_sublist {bl : Nat → Bool} : ∀ {cl : List Lit} {i : Nat}, (compact bl i cl).Sublist cl := by
  intro cl
  induction cl with
  | nil => intro i; simp [compact]
  | cons k cl ih =>
    intro i
    simp only [compact]
    split
    · exact ih.cons _
    · exact ih.cons₂ _

theorem once_index {cl : List Lit} {v : Nat} : OccursOnce cl v → ∀ {i j : Nat} {l k : Lit}, cl[i]? = some l → cl[j]? = some k →
    v ∈ vars l.atom → v ∈ vars k.atom → i = j := by
  induction cl with
  | nil => intro _ i j l k h; simp at h
  | cons a cl ih =>
    intro hu i j l k hi hj hl hk
    simp only [OccursOnce, List.flatMap_cons, List.count_append] at hu
    have pos : ∀ {m : Nat} {q : Lit}, cl[m]? = some q → v ∈ vars q.atom →
        0 < (cl.flatMap (fun l => vars l.atom)).count v := fun hm hq =>
      List.count_pos_iff.2 (List.mem_flatMap.2 ⟨_, List.mem_of_getElem? hm, hq⟩)
    cases i with
    | zero =>
      cases j with
      | zero => rfl
      | succ j =>
        simp only [List.getElem?_cons_zero, Option.some.injEq] at hi
        subst hi
        have h1 : 0 < (vars a.atom).count v := List.count_pos_iff.2 hl
        have h2 := pos (by simpa using hj) hk
        omega
    | succ i =>
      cases j with
      | zero =>
        simp only [List.getElem?_cons_zero, Option.some.injEq] at hj
        subst hj
        have h1 : 0 < (vars a.atom).count v := List.count_pos_iff.2 hk
        have h2 := pos (by simpa using hi) hl
        omega
      | succ j =>
        simp only [List.getElem?_cons_succ] at hi hj
        have h2 := pos hi hl
        have : i = j := ih (show OccursOnce cl v by unfold OccursOnce; omega) hi hj hl hk
        omega

/-- what removal does, by positions: `bl` are the removed ones -/
theorem strongDup_shape {cl r : List Lit} (h : strongDup cl = some r) : ∃ bl : Nat → Bool,
    r.Sublist cl ∧ (∀ l, l ∈ r ↔ ∃ j, cl[j]? = some l ∧ bl j = false) ∧
    ∀ i l, cl[i]? = some l → bl i = true → ∃ j k, cl[j]? = some k ∧ bl j = false ∧ GenBy (OccursOnce cl) l k := by
  have same : ∃ bl : Nat → Bool, cl.Sublist cl ∧ (∀ l, l ∈ cl ↔ ∃ j, cl[j]? = some l ∧ bl j = false) ∧
      ∀ i l, cl[i]? = some l → bl i = true → ∃ j k, cl[j]? = some k ∧ bl j = false ∧ GenBy (OccursOnce cl) l k :=
    ⟨fun _ => false, List.Sublist.refl _, fun l => by simp [List.mem_iff_getElem?], fun i l _ h => by cases h⟩
  simp only [strongDup] at h
  split at h
  · cases h; exact same
  · split at h
    · cases h; exact same
    · split at h
      · cases h
      · rename_i bl e
        simp only [Option.some.injEq] at h
        subst h
        have hi := dupOuter_inv (cl := cl) (Nat.min_le_left _ _) _ 0 _ bl (by omega)
          (fun i hb => by cases hb) e
        refine ⟨bl, compact_sublist, ?_, ?_⟩
        · intro l
          rw [mem_compact]
          constructor
          · rintro ⟨j, h1, h2⟩
            refine ⟨j, h1, ?_⟩
            cases hb : bl j with
            | false => rfl
            | true =>
              have := (hi j hb).1
              exact absurd ⟨by omega, by rw [Nat.zero_add]; exact hb⟩ h2
          · rintro ⟨j, h1, h2⟩
            exact ⟨j, h1, by rw [Nat.zero_add, h2]; simp⟩
        · intro i l hl hb
          obtain ⟨_, k, hk, h2, h3⟩ := hi i hb
          have hk' : k < cl.length := by omega
          refine ⟨k, litAt cl k, by simp [litAt, List.getD, List.getElem?_eq_getElem hk'], h2, ?_⟩
          have : litAt cl i = l := by simp [litAt, List.getD, hl]
          rw [← this]; exact h3

namespace Props

/-- C17: removing strong duplicates keeps the meaning of the clause in every interpretation. -/
theorem C17_equivalent_partial (cl r : List Lit) (h : strongDup cl = some r) (I : Interp) : ClTrue I r ↔ ClTrue I cl := by
  obtain ⟨bl, hsub, hmem, hgen⟩ := strongDup_shape h
  constructor
  · intro hr; exact hr.mono (fun l hl => hsub.subset hl)
  · intro hc ρ
    -- the substitution of each removed literal
    have hσ : ∀ i l, ∃ σ : Nat → Term, cl[i]? = some l → bl i = true → (∀ v, ¬ OccursOnce cl v → σ v = .var v) ∧
        ∃ j, cl[j]? = some ⟨l.neg, subst σ l.atom⟩ ∧ bl j = false := by
      intro i l
      by_cases h1 : cl[i]? = some l ∧ bl i = true
      · obtain ⟨j, k, hj, hb, hn, σ, hs, he⟩ := hgen i l h1.1 h1.2
        refine ⟨σ, fun _ _ => ⟨hs, j, ?_, hb⟩⟩
        rw [he, hn]; exact hj
      · exact ⟨.var, fun a b => absurd ⟨a, b⟩ h1⟩
    let S : Nat → Lit → Nat → Term := fun i l => Classical.choose (hσ i l)
    have hS : ∀ i l, cl[i]? = some l → bl i = true → (∀ v, ¬ OccursOnce cl v → S i l v = .var v) ∧
        ∃ j, cl[j]? = some ⟨l.neg, subst (S i l) l.atom⟩ ∧ bl j = false := fun i l => Classical.choose_spec (hσ i l)
    -- the changed assignment
    let P : Nat → Nat × Lit → Prop := fun v q => cl[q.1]? = some q.2 ∧ bl q.1 = true ∧ v ∈ vars q.2.atom ∧ OccursOnce cl v
    let ρ' : Nat → I.D := fun v => open Classical in
      if hq : ∃ q, P v q then eval I ρ (S (Classical.choose hq).1 (Classical.choose hq).2 v) else ρ v
    obtain ⟨l, hl, ht⟩ := hc ρ'
    obtain ⟨i, hi⟩ := List.mem_iff_getElem?.1 hl
    cases hb : bl i with
    | false =>
      refine ⟨l, (hmem l).2 ⟨i, hi, hb⟩, ?_⟩
      refine (Lit.tr_congr ?_).1 ht
      intro v hv
      show (open Classical in if hq : ∃ q, P v q then eval I ρ (S (Classical.choose hq).1 (Classical.choose hq).2 v) else ρ v) = ρ v
      split
      · rename_i hq
        obtain ⟨h1, h2, h3, h4⟩ := Classical.choose_spec hq
        have := once_index h4 h1 hi h3 hv
        rw [this, hb] at h2; cases h2
      · rfl
    | true =>
      obtain ⟨h1, j, hj, hbj⟩ := hS i l hi hb
      refine ⟨_, (hmem _).2 ⟨j, hj, hbj⟩, ?_⟩
      have : (l.subst (S i l)).tr I ρ ↔ l.tr I ρ' := by
        rw [Lit.tr_subst]
        apply Lit.tr_congr
        intro v hv
        show _ = (open Classical in if hq : ∃ q, P v q then eval I ρ (S (Classical.choose hq).1 (Classical.choose hq).2 v) else ρ v)
        split
        · rename_i hq
          obtain ⟨g1, g2, g3, g4⟩ := Classical.choose_spec hq
          have e := once_index g4 g1 hi g3 hv
          have e2 : (Classical.choose hq).2 = l := by
            rw [e, hi] at g1
            simpa using g1.symm
          rw [e, e2]
        · rename_i hq
          have : ¬ OccursOnce cl v := fun ho => hq ⟨(i, l), hi, hb, hv, ho⟩
          rw [h1 v this]; rfl
      exact this.2 ht

/-- C17: literals are only removed, in order, and each removed literal becomes some kept
literal when variables occurring nowhere else in the clause are replaced. -/
theorem C17_removed_are_general (cl r : List Lit) (h : strongDup cl = some r) :
    r.Sublist cl ∧ ∀ l ∈ cl, l ∈ r ∨ ∃ k ∈ r, l.neg = k.neg ∧
      ∃ σ : Nat → Term, (∀ v, ¬ OccursOnce cl v → σ v = .var v) ∧ subst σ l.atom = k.atom := by
  obtain ⟨bl, hsub, hmem, hgen⟩ := strongDup_shape h
  refine ⟨hsub, fun l hl => ?_⟩
  obtain ⟨i, hi⟩ := List.mem_iff_getElem?.1 hl
  cases hb : bl i with
  | false => exact .inl ((hmem l).2 ⟨i, hi, hb⟩)
  | true =>
    obtain ⟨j, k, hj, hbj, hg⟩ := hgen i l hi hb
    exact .inr ⟨k, (hmem k).2 ⟨j, hj, hbj⟩, hg⟩

/-- C17: a clause never becomes empty. -/
theorem C17_never_empties (cl r : List Lit) (h : strongDup cl = some r) (hc : cl ≠ []) : r ≠ [] := by
  rintro rfl
  cases cl with
  | nil => exact hc rfl
  | cons l cl =>
    rcases (C17_removed_are_general _ _ h).2 l (by simp) with h | ⟨k, h, _⟩ <;> cases h

/-- example: `p(?1,?2) | p(?3,?2) | p(f(a),?2) | q(?4)` keeps `p(f(a),?2) | q(?4)` -/
example : strongDup [⟨false, ap "p" [.var 1, .var 2]⟩, ⟨false, ap "p" [.var 3, .var 2]⟩,
    ⟨false, ap "p" [ap "f" [cn "a"], .var 2]⟩, ⟨true, ap "q" [.var 4]⟩] =
    some [⟨false, ap "p" [ap "f" [cn "a"], .var 2]⟩, ⟨true, ap "q" [.var 4]⟩] := rfl

/-- Finding: comparing a constant with a compound term uses the constant as the address of a
record (Reasoner/unify.c:482-492), for instance in `p(a) | p(f(?1))`. -/
theorem C17_constant_against_record : strongDup [⟨false, ap "p" [cn "a"]⟩, ⟨false, ap "p" [ap "f" [.var 1]]⟩] = none := rfl

mutual
/-- no constant of `x` stands where `y` has a compound term -/
def NoClash : Term → Term → Prop
  | .const _, .app _ _ => False
  | .app f as, .app g bs => as.length = bs.length → f = g → NoClashL as bs
  | _, _ => True
def NoClashL : List Term → List Term → Prop
  | a :: as, b :: bs => NoClash a b ∧ NoClashL as bs
  | _, _ => True
end

mutual
theorem noMatch_noClash (m : Nat → Mark) : ∀ (x y : Term), NoClash x y → noMatch m x y ≠ .ub
  | .var v, y, _ => by
    simp only [noMatch]
    split
    · exact fun h => nomatch h
    · split <;> exact fun h => nomatch h
  | .const c, .var _, _ => by simp only [noMatch]; split <;> exact fun h => nomatch h
  | .const c, .const _, _ => by simp only [noMatch]; split <;> exact fun h => nomatch h
  | .const c, .app _ _, h => by simp [NoClash] at h
  | .app f as, .var _, _ => by simp [noMatch]
  | .app f as, .const _, _ => by simp [noMatch]
  | .app f as, .app g bs, h => by
    simp only [noMatch]
    split
    · exact fun h => nomatch h
    · rename_i hl
      split
      · exact fun h => nomatch h
      · rename_i hf
        simp only [NoClash] at h
        exact noMatchL_noClash m as bs (h (by simpa using hl) (Classical.byContradiction hf))
theorem noMatchL_noClash (m : Nat → Mark) : ∀ (as bs : List Term), NoClashL as bs → noMatchL m as bs ≠ .ub
  | [], _, _ => by simp [noMatchL]
  | _ :: _, [], _ => by simp [noMatchL]
  | a :: as, b :: bs, h => by
    simp only [NoClashL] at h
    simp only [noMatchL]
    split
    · exact noMatchL_noClash m as bs h.2
    · exact noMatch_noClash m a b h.1
end

/-- C17: apart from that, the outcome is always defined. -/
theorem C17_defined_without_clash (cl : List Lit)
    (hc : ∀ l ∈ cl, ∀ k ∈ cl, l.neg = k.neg → NoClash l.atom k.atom) : ∃ r, strongDup cl = some r := by
  have step : ∀ x y bl, x < cl.length → y < cl.length → dupStep (markAll cl) cl x y bl ≠ none := by
    intro x y bl hx hy
    simp only [dupStep]
    split
    · exact fun h => nomatch h
    · split
      · rename_i hs
        have hs : (litAt cl x).neg = (litAt cl y).neg := by simpa using hs
        split
        · exact fun h => nomatch h
        · split
          · exact fun h => nomatch h
          · rename_i hu
            exact absurd hu (noMatch_noClash _ _ _ (hc _ (litAt_mem hy) _ (litAt_mem hx) hs.symm))
          · exact fun h => nomatch h
        · exact fun h => nomatch h
        · rename_i hu
          exact absurd hu (noMatch_noClash _ _ _ (hc _ (litAt_mem hx) _ (litAt_mem hy) hs))
      · exact fun h => nomatch h
  have inner : ∀ x, x < cl.length → ∀ k y bl, y + k ≤ cl.length → dupInner (markAll cl) cl x k y bl ≠ none := by
    intro x hx k
    induction k with
    | zero => intro y bl _; simp [dupInner]
    | succ k ih =>
      intro y bl hy
      simp only [dupInner]
      split
      · rename_i e; exact absurd e (step x y bl hx (by omega))
      · exact ih _ _ (by omega)
  have outer : ∀ lim, lim ≤ cl.length → ∀ k x bl, x + k ≤ lim → dupOuter (markAll cl) cl lim k x bl ≠ none := by
    intro lim hlim k
    induction k with
    | zero => intro x bl _; simp [dupOuter]
    | succ k ih =>
      intro x bl hx
      simp only [dupOuter]
      split
      · exact ih _ _ (by omega)
      · split
        · rename_i e; exact absurd e (inner x (by omega) _ _ bl (by omega))
        · exact ih _ _ (by omega)
  apply Option.ne_none_iff_exists'.1
  simp only [strongDup]
  split
  · exact fun h => nomatch h
  · split
    · exact fun h => nomatch h
    · split
      · rename_i e
        exact absurd e (outer _ (Nat.min_le_left _ _) _ 0 _ (by omega))
      · exact fun h => nomatch h

end Props

end Gkc
