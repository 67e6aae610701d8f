import Verif.Rewrite
import Verif.OrderLemmas
import Verif.UnifyLemmas
import Verif.BuildLemmas
/- Lemmas about rewriting. -/
namespace Gkc
open Term

/-- related element by element -/
inductive All2 (Q : Term → Term → Prop) : List Term → List Term → Prop
  | nil : All2 Q [] []
  | cons {a b as bs} : Q a b → All2 Q as bs → All2 Q (a :: as) (b :: bs)

theorem ROut.bind_ok {α β : Type} {o : ROut α} {f : α → ROut β} {b : β} {k : Nat} (h : o.bind f = .ok b k) :
    ∃ a i j, o = .ok a i ∧ f a = .ok b j ∧ k = i + j := by
  cases o with
  | ok a i =>
    simp only [ROut.bind] at h
    cases e : f a with
    | ok b' j => rw [e] at h; cases h; exact ⟨a, i, j, rfl, e, rfl⟩
    | _ => rw [e] at h; cases h
  | _ => simp [ROut.bind] at h

theorem ROut.tick_ok {α : Type} {o : ROut α} {b : α} {k : Nat} (h : o.tick = .ok b k) : ∃ j, o = .ok b j ∧ k = j + 1 := by
  cases o with
  | ok a i => simp only [ROut.tick, ROut.ok.injEq] at h; exact ⟨i, by rw [h.1], h.2.symm⟩
  | _ => simp [ROut.tick] at h

theorem findRule_spec {x : Term} : ∀ {rs : List (Term × Term)} {r s}, findRule x rs = .rule r s →
    ∃ l, (l, r) ∈ rs ∧ matchT St.empty l x = .ok s
  | [], r, s, h => by simp [findRule] at h
  | (l, r') :: rs, r, s, h => by
    simp only [findRule] at h
    split at h
    · rename_i s' e
      simp only [Found.rule.injEq] at h
      exact ⟨l, by simp [h.1], by rw [e, h.2]⟩
    · obtain ⟨l', a, b⟩ := findRule_spec h
      exact ⟨l', by simp [a], b⟩
    · cases h

theorem findRule_none {x : Term} : ∀ {rs : List (Term × Term)}, findRule x rs = .none →
    ∀ p ∈ rs, ¬ ∃ θ, subst θ p.1 = x
  | [], _ => by simp
  | (l, r') :: rs, h => by
    simp only [findRule] at h
    intro p hp
    split at h
    · cases h
    · rename_i s' e
      simp only [List.mem_cons] at hp
      rcases hp with rfl | hp
      · rintro ⟨θ, hθ⟩
        obtain ⟨s2, h2, _⟩ := matchT_complete l St.empty θ (by intro v t h; simp [St.empty] at h)
        rw [hθ] at h2
        rw [h2] at e; cases e
      · exact findRule_none h p hp
    · cases h

theorem findConst_spec {x : Term} : ∀ {rs : List (Term × Term)} {r}, findConst x rs = some r → (x, r) ∈ rs
  | [], r, h => by simp [findConst] at h
  | (l, r') :: rs, r, h => by
    simp only [findConst] at h
    split at h
    · rename_i e
      have := (eqTerm_iff l x).1 e
      cases h; simp [this]
    · simp [findConst_spec h]

theorem findConst_none {x : Term} : ∀ {rs : List (Term × Term)}, findConst x rs = none → ∀ p ∈ rs, p.1 ≠ x
  | [], _ => by simp
  | (l, r') :: rs, h => by
    simp only [findConst] at h
    split at h
    · cases h
    · rename_i e
      intro p hp
      simp only [List.mem_cons] at hp
      rcases hp with rfl | hp
      · intro e'; exact e ((eqTerm_iff _ _).2 e')
      · exact findConst_none h p hp

/-- values of bound variables contain no bound variables -/
def NoChain (s : St) : Prop := ∀ v u, s.b v = some u → ∀ w ∈ vars u, s.b w = none

theorem subst_val_free {s : St} {t : Term} (h : ∀ w ∈ vars t, s.b w = none) : subst s.val t = t := by
  have : subst s.val t = subst .var t := subst_congr (fun v hv => by simp [St.val, h v hv])
  rw [this, subst_id]

/-- what is needed of a relation kept by rewriting -/
structure RwRel (ev : Term → Option Term) (R : Term → List (Term × Term)) (G : Term → Prop)
    (Q : Term → Term → Prop) : Prop where
  refl : ∀ x, Q x x
  trans : ∀ x y z, Q x y → Q y z → Q x z
  gargs : ∀ f as, G (.app f as) → ∀ a ∈ as, G a
  gapp : ∀ f as as', G (.app f as) → as.length = as'.length → (∀ a ∈ as', G a) → G (.app f as')
  app : ∀ f as as', All2 Q as as' → Q (.app f as) (.app f as')
  head : ∀ f g as n k, G (.app f as) → rwConst R n (.const f) = .ok (.const g) k →
    G (.app g as) ∧ Q (.app f as) (.app g as)
  ev : ∀ t t', G t → ev t = some t' → G t' ∧ Q t t'
  step : ∀ key l r θ, (l, r) ∈ R key → G (subst θ l) → G (subst θ r) ∧ Q (subst θ l) (subst θ r)
  chain : ∀ key l r x s, (l, r) ∈ R key → matchT St.empty l x = .ok s → G x → NoChain s

theorem mapR_ok {f : Term → ROut Term} : ∀ {as as' : List Term} {k : Nat}, mapR f as = .ok as' k →
    All2 (fun a b => ∃ j, f a = .ok b j) as as'
  | [], as', k, h => by simp only [mapR, ROut.ok.injEq] at h; rw [← h.1]; exact .nil
  | a :: as, as', k, h => by
    simp only [mapR] at h
    obtain ⟨a', i, j, h1, h2, _⟩ := ROut.bind_ok h
    obtain ⟨as2, i2, j2, h3, h4, _⟩ := ROut.bind_ok h2
    cases h4
    exact .cons ⟨i, h1⟩ (mapR_ok h3)

theorem All2.length {Q : Term → Term → Prop} {as bs : List Term} (h : All2 Q as bs) : as.length = bs.length := by
  induction h with
  | nil => rfl
  | cons _ _ ih => simp [ih]

theorem All2.imp {P Q : Term → Term → Prop} {as bs : List Term} (h : All2 P as bs)
    (hi : ∀ a ∈ as, ∀ b, P a b → Q a b) : All2 Q as bs := by
  induction h with
  | nil => exact .nil
  | cons h0 _ ih => exact .cons (hi _ (by simp) _ h0) (ih (fun a ha => hi a (by simp [ha])))

theorem All2.right {P : Term → Term → Prop} {G : Term → Prop} {as bs : List Term} (h : All2 P as bs)
    (hi : ∀ a ∈ as, ∀ b, P a b → G b) : ∀ b ∈ bs, G b := by
  induction h with
  | nil => simp
  | cons h0 _ ih =>
    intro b hb
    simp only [List.mem_cons] at hb
    rcases hb with rfl | hb
    · exact hi _ (by simp) _ h0
    · exact ih (fun a ha => hi a (by simp [ha])) b hb

theorem All2.map_left {Q : Term → Term → Prop} {g : Term → Term} {as bs : List Term}
    (h : All2 (fun a b => Q (g a) b) as bs) : All2 Q (as.map g) bs := by
  induction h with
  | nil => exact .nil
  | cons h0 _ ih => exact .cons h0 ih

section
variable {ev : Term → Option Term} {R : Term → List (Term × Term)} {G : Term → Prop} {Q : Term → Term → Prop}

theorem walk_chain {s : St} (hc : NoChain s) {n : Nat} {t y : Term} (h : walk s.b n t = some y) :
    subst s.val t = subst s.val y ∧ ((∃ f as, y = .app f as) ∨ subst s.val y = y) := by
  cases n with
  | zero => simp [walk] at h
  | succ n =>
    cases t with
    | const c => simp [walk] at h; subst h; exact ⟨rfl, Or.inr (by simp)⟩
    | app f as => simp [walk] at h; subst h; exact ⟨rfl, Or.inl ⟨_, _, rfl⟩⟩
    | var v =>
      simp only [walk] at h
      split at h
      · rename_i hb
        cases h
        exact ⟨rfl, Or.inr (by simp [St.val, hb])⟩
      · rename_i u hb
        have hu := hc v u hb
        have e1 : subst s.val (.var v) = u := by simp [St.val, hb]
        have e2 := subst_val_free hu
        cases n with
        | zero => simp [walk] at h
        | succ n =>
          have : y = u := by
            cases u with
            | const c => simp [walk] at h; exact h.symm
            | app f as => simp [walk] at h; exact h.symm
            | var w => simp [walk, hu w (by simp)] at h; exact h.symm
          subst this
          exact ⟨by rw [e1, e2], Or.inr e2⟩

theorem buildS_rel (hr : RwRel ev R G Q) {s : St} (hc : NoChain s) : ∀ {n t t' k}, buildS ev s n t = .ok t' k →
    G (subst s.val t) → G t' ∧ Q (subst s.val t) t' := by
  intro n
  induction n with
  | zero => intro t t' k h; simp [buildS] at h
  | succ n ih =>
    intro t t' k h hg
    simp only [buildS] at h
    cases e : walk s.b (n + 1) t with
    | none => rw [e] at h; cases h
    | some y =>
      rw [e] at h
      obtain ⟨e1, e2⟩ := walk_chain hc e
      rw [e1] at hg ⊢
      cases y with
      | var v =>
        simp only [ROut.ok.injEq] at h
        rcases e2 with ⟨f, as, e2⟩ | e2
        · cases e2
        · rw [e2] at hg ⊢; rw [← h.1]; exact ⟨hg, hr.refl _⟩
      | const c => simp only [ROut.ok.injEq] at h; rw [← h.1]; exact ⟨by simpa using hg, by simpa using hr.refl _⟩
      | app f as =>
        simp only at h
        obtain ⟨as', i, j, h1, h2, _⟩ := ROut.bind_ok h
        rw [subst_app] at hg ⊢
        have ha := mapR_ok h1
        have hga : ∀ a ∈ as, G (subst s.val a) := fun a ha => hr.gargs _ _ hg _ (List.mem_map_of_mem ha)
        have hq : All2 Q (as.map (subst s.val)) as' :=
          All2.map_left (ha.imp (fun a ha b ⟨j, hb⟩ => (ih hb (hga a ha)).2))
        have hg' : ∀ b ∈ as', G b := ha.right (fun a ha b ⟨j, hb⟩ => (ih hb (hga a ha)).1)
        have g1 := hr.gapp _ _ as' hg hq.length hg'
        have q1 := hr.app f _ _ hq
        split at h2
        · cases h2
        · rename_i r er
          cases h2
          obtain ⟨g2, q2⟩ := hr.ev _ _ g1 er
          exact ⟨g2, hr.trans _ _ _ q1 q2⟩

theorem rwConst_rel (hr : RwRel ev R G Q) : ∀ {n x y k}, rwConst R n x = .ok y k → G x → G y ∧ Q x y := by
  intro n
  induction n with
  | zero => intro x y k h; simp [rwConst] at h
  | succ n ih =>
    intro x y k h hg
    simp only [rwConst] at h
    split at h
    · cases h; exact ⟨hg, hr.refl _⟩
    · rename_i b e
      obtain ⟨j, h1, _⟩ := ROut.tick_ok h
      have hm := findConst_spec e
      have := hr.step _ _ _ .var hm
      rw [subst_id, subst_id] at this
      obtain ⟨g1, q1⟩ := this hg
      obtain ⟨g2, q2⟩ := ih h1 g1
      exact ⟨g2, hr.trans _ _ _ q1 q2⟩

theorem rw_rel (hr : RwRel ev R G Q) : ∀ n,
    (∀ x y k, rwBuild ev R n x = .ok y k → G x → G y ∧ Q x y) ∧
    (∀ x y k, rwTerm ev R n x = .ok y k → G x → G y ∧ Q x y) ∧
    (∀ x y k, rwAgain ev R n x = .ok y k → G x → G y ∧ Q x y) := by
  intro n
  induction n with
  | zero =>
    refine ⟨?_, ?_, ?_⟩
    · intro x y k h; simp [rwBuild] at h
    · intro x y k h; simp [rwTerm] at h
    · intro x y k h; simp [rwAgain] at h
  | succ n ih =>
    obtain ⟨ihb, iht, iha⟩ := ih
    refine ⟨?_, ?_, ?_⟩
    · intro x y k h hg
      simp only [rwBuild] at h
      cases x with
      | var v => cases h; exact ⟨hg, hr.refl _⟩
      | const c => exact rwConst_rel hr h hg
      | app f as =>
        simp only at h
        obtain ⟨f', i, j, h1, h2, _⟩ := ROut.bind_ok h
        obtain ⟨as', i2, j2, h3, h4, _⟩ := ROut.bind_ok h2
        cases f' with
        | var v => cases h4
        | app _ _ => cases h4
        | const g =>
          simp only at h4
          obtain ⟨g0, q0⟩ := hr.head f g as _ _ hg h1
          have ha := mapR_ok h3
          have hga := hr.gargs _ _ g0
          have hq : All2 Q as as' := ha.imp (fun a ha b ⟨j, hb⟩ => (ihb _ _ _ hb (hga a ha)).2)
          have hg' : ∀ b ∈ as', G b := ha.right (fun a ha b ⟨j, hb⟩ => (ihb _ _ _ hb (hga a ha)).1)
          have g1 := hr.gapp _ _ as' g0 hq.length hg'
          have q1 := hr.trans _ _ _ q0 (hr.app g _ _ hq)
          split at h4
          · cases h4
          · rename_i r er
            obtain ⟨g2, q2⟩ := hr.ev _ _ g1 er
            have q3 := hr.trans _ _ _ q1 q2
            split at h4
            · cases h4; exact ⟨g2, q3⟩
            · obtain ⟨g4, q4⟩ := iht _ _ _ h4 g2
              exact ⟨g4, hr.trans _ _ _ q3 q4⟩
    · intro x y k h hg
      simp only [rwTerm] at h
      split at h
      · cases h; exact ⟨hg, hr.refl _⟩
      · cases h
      · rename_i r s e
        obtain ⟨l, hm, hs⟩ := findRule_spec e
        obtain ⟨j, h1, _⟩ := ROut.tick_ok h
        have hc := hr.chain _ _ _ _ _ hm hs hg
        have hx : subst s.val l = x := (matchT_sound l St.empty x s hs).2.1
        have hst := hr.step _ _ _ s.val hm
        rw [hx] at hst
        obtain ⟨g1, q1⟩ := hst hg
        cases r with
        | const c =>
          simp only at h1
          rw [subst_const] at g1 q1
          obtain ⟨g2, q2⟩ := rwConst_rel hr h1 g1
          exact ⟨g2, hr.trans _ _ _ q1 q2⟩
        | var v =>
          simp only at h1
          split at h1
          · cases h1
          · rename_i b eb
            have e3 : subst s.val (.var v) = b := by simp [St.val, eb]
            rw [e3] at g1 q1
            obtain ⟨g2, q2⟩ := iha _ _ _ h1 g1
            exact ⟨g2, hr.trans _ _ _ q1 q2⟩
        | app f as =>
          simp only at h1
          obtain ⟨b, i, j, h2, h3, _⟩ := ROut.bind_ok h1
          obtain ⟨g2, q2⟩ := buildS_rel hr hc h2 g1
          obtain ⟨g3, q3⟩ := iha _ _ _ h3 g2
          exact ⟨g3, hr.trans _ _ _ (hr.trans _ _ _ q1 q2) q3⟩
    · intro x y k h hg
      simp only [rwAgain] at h
      cases x with
      | var v => cases h; exact ⟨hg, hr.refl _⟩
      | const c => exact rwConst_rel hr h hg
      | app f as => exact ihb _ _ _ h hg
end

/-! ### Convergence -/

/-- from some budget on the outcome is one and the same, and not `fuel` -/
def Conv {α : Type} (f : Nat → ROut α) : Prop := ∃ o, o ≠ .fuel ∧ ∃ N, ∀ n, N ≤ n → f n = o

theorem Conv.const {α : Type} {o : ROut α} (h : o ≠ .fuel) : Conv (fun _ => o) := ⟨o, h, 0, fun _ _ => rfl⟩

theorem Conv.shift {α : Type} {f : Nat → ROut α} (h : Conv (fun n => f (n + 1))) : Conv f := by
  obtain ⟨o, ho, N, hN⟩ := h
  refine ⟨o, ho, N + 1, ?_⟩
  intro n hn
  obtain ⟨m, rfl⟩ : ∃ m, n = m + 1 := ⟨n - 1, by omega⟩
  exact hN m (by omega)

theorem Conv.bind {α β : Type} {f : Nat → ROut α} {g : Nat → α → ROut β} (h : Conv f)
    (hg : ∀ a n k, f n = .ok a k → Conv (fun n => g n a)) : Conv (fun n => (f n).bind (g n)) := by
  obtain ⟨o, ho, N, hN⟩ := h
  cases o with
  | fuel => exact absurd rfl ho
  | ub => exact ⟨.ub, by simp, N, fun n hn => by show (f n).bind (g n) = _; rw [hN n hn]; rfl⟩
  | illegal => exact ⟨.illegal, by simp, N, fun n hn => by show (f n).bind (g n) = _; rw [hN n hn]; rfl⟩
  | bad => exact ⟨.bad, by simp, N, fun n hn => by show (f n).bind (g n) = _; rw [hN n hn]; rfl⟩
  | ok a k =>
    obtain ⟨o2, ho2, N2, hN2⟩ := hg a N k (hN N (Nat.le_refl _))
    refine ⟨(ROut.ok a k).bind (fun _ => o2), ?_, max N N2, ?_⟩
    · cases o2 <;> simp_all [ROut.bind]
    · intro n hn
      show (f n).bind (g n) = _
      rw [hN n (by omega)]
      have := hN2 n (by omega)
      simp only at this
      simp only [ROut.bind, this]

theorem Conv.tick {α : Type} {f : Nat → ROut α} (h : Conv f) : Conv (fun n => (f n).tick) := by
  obtain ⟨o, ho, N, hN⟩ := h
  refine ⟨o.tick, ?_, N, fun n hn => by show (f n).tick = _; rw [hN n hn]⟩
  cases o <;> simp_all [ROut.tick]

theorem Conv.mapR {f : Nat → Term → ROut Term} : ∀ {as : List Term}, (∀ a ∈ as, Conv (fun n => f n a)) →
    Conv (fun n => mapR (f n) as)
  | [], _ => Conv.const (by simp)
  | a :: as, h => by
    simp only [Gkc.mapR]
    refine Conv.bind (h a (by simp)) ?_
    intro a' _ _ _
    refine Conv.bind (Conv.mapR (fun b hb => h b (by simp [hb]))) ?_
    intro as' _ _ _
    exact Conv.const (by simp)

/-- equal or bigger -/
def Ge (wd : Const → Int) (s t : Term) : Prop := s = t ∨ Gt wd s t

theorem Ge.trans {wd : Const → Int} (hw : WordInj wd) {s t u : Term} (h : Ge wd s t) (h' : Ge wd t u) : Ge wd s u := by
  rcases h with rfl | h
  · exact h'
  · rcases h' with rfl | h'
    · exact Or.inr h
    · exact Or.inr (h.trans hw h')

theorem Ge.trans_gt {wd : Const → Int} (hw : WordInj wd) {s t u : Term} (h : Ge wd s t) (h' : Gt wd t u) : Gt wd s u := by
  rcases h with rfl | h
  · exact h'
  · exact h.trans hw h'

theorem Gt.trans_ge {wd : Const → Int} (hw : WordInj wd) {s t u : Term} (h : Gt wd s t) (h' : Ge wd t u) : Gt wd s u := by
  rcases h' with rfl | h'
  · exact h
  · exact h.trans hw h'

theorem Ge.args {wd : Const → Int} (hw : WordInj wd) (f : Const) {as bs : List Term} (h : All2 (Ge wd) as bs) :
    ∀ pre, Ge wd (.app f (pre ++ as)) (.app f (pre ++ bs)) := by
  induction h with
  | nil => intro pre; exact Or.inl rfl
  | cons h0 _ ih =>
    rename_i a b as bs _
    intro pre
    have h1 : Ge wd (.app f (pre ++ a :: as)) (.app f (pre ++ b :: as)) := by
      rcases h0 with rfl | h0
      · exact Or.inl rfl
      · exact Or.inr (h0.arg f pre as)
    have h2 := ih (pre ++ [b])
    simp only [List.append_assoc, List.singleton_append] at h2
    exact h1.trans hw h2

theorem gt_const {wd : Const → Int} {c : Const} {t : Term} (h : Gt wd (.const c) t) : ∃ d, t = .const d ∧ wd c < wd d := by
  obtain ⟨_, h | ⟨_, h⟩⟩ := h
  · have := size_pos t; simp at h; omega
  · cases t with
    | var w => simp [lexOrder] at h
    | app g bs => simp [lexOrder] at h
    | const d =>
      simp only [lexOrder, constSmaller, decide_eq_true_eq] at h
      split at h <;> [simp at h; skip]
      split at h <;> [simp at h; skip]
      exact ⟨d, rfl, by omega⟩

theorem gt_sub {wd : Const → Int} {f : Const} {as : List Term} {a : Term} (h : a ∈ as) : Gt wd (.app f as) a := by
  refine ⟨?_, Or.inl (by have := size_le_sizeL h; simp; omega)⟩
  intro v
  simp only [vars_app]
  induction as with
  | nil => simp at h
  | cons b as ih =>
    simp only [varsL_cons, List.count_append]
    simp only [List.mem_cons] at h
    rcases h with rfl | h
    · omega
    · have := ih h; omega

/-- oriented rules with variables of their own, and computing that does not make terms bigger -/
structure Oriented (wd : Const → Int) (ev : Term → Option Term) (R : Term → List (Term × Term)) (V : Nat → Prop) : Prop where
  gt : ∀ key l r, (l, r) ∈ R key → Gt wd l r
  own : ∀ key l r, (l, r) ∈ R key → ∀ v ∈ vars l, V v
  ev : ∀ t t', ev t = some t' → Ge wd t t'

theorem chain_of {V : Nat → Prop} {l x : Term} {s : St} (hl : ∀ v ∈ vars l, V v) (hx : ∀ v ∈ vars x, ¬ V v)
    (hs : matchT St.empty l x = .ok s) : NoChain s := by
  obtain ⟨h1, h2, h3⟩ := matchT_sound l St.empty x s hs
  intro v u hv w hw
  have hvl : v ∈ vars l := by
    refine Classical.byContradiction fun hn => ?_
    rw [h3 v hn] at hv; simp [St.empty] at hv
  have hwx : w ∈ vars x := by
    rw [← h2, vars_subst]
    exact ⟨v, hvl, by simp [St.val, hv, hw]⟩
  rw [h3 w (fun h => hx w hwx (hl w h))]; rfl

theorem VarLe.noV {V : Nat → Prop} {s t : Term} (h : VarLe t s) (hs : ∀ v ∈ vars s, ¬ V v) : ∀ v ∈ vars t, ¬ V v :=
  fun v hv => hs v (h.mem hv)

theorem Ge.noV {wd : Const → Int} {V : Nat → Prop} {s t : Term} (h : Ge wd s t) (hs : ∀ v ∈ vars s, ¬ V v) :
    ∀ v ∈ vars t, ¬ V v := by
  rcases h with rfl | h
  · exact hs
  · exact VarLe.noV h.1 hs

theorem rwConst_ge {wd : Const → Int} {ev R V} (ho : Oriented wd ev R V) (hw : WordInj wd) :
    ∀ {n x y k}, rwConst R n x = .ok y k → Ge wd x y := by
  intro n
  induction n with
  | zero => intro x y k h; simp [rwConst] at h
  | succ n ih =>
    intro x y k h
    simp only [rwConst] at h
    split at h
    · cases h; exact Or.inl rfl
    · rename_i b e
      obtain ⟨j, h1, _⟩ := ROut.tick_ok h
      exact Or.inr ((ho.gt _ _ _ (findConst_spec e)).trans_ge hw (ih h1))

theorem Oriented.rel {wd : Const → Int} {ev R V} (ho : Oriented wd ev R V) (hw : WordInj wd) :
    RwRel ev R (fun t => ∀ v ∈ vars t, ¬ V v) (Ge wd) where
  refl x := Or.inl rfl
  trans x y z h h' := h.trans hw h'
  gargs f as h a ha v hv := h v (by rw [vars_app, mem_varsL]; exact ⟨a, ha, hv⟩)
  gapp f as as' _ _ h v hv := by
    rw [vars_app, mem_varsL] at hv
    obtain ⟨a, ha, hv⟩ := hv
    exact h a ha v hv
  app f as as' h := by simpa using Ge.args hw f h []
  head f g as n k h hc := by
    refine ⟨by simpa using h, ?_⟩
    rcases rwConst_ge ho hw hc with e | e
    · cases e; exact Or.inl rfl
    · obtain ⟨d, e1, e2⟩ := gt_const e
      cases e1
      exact Or.inr (Gt.head e2 as)
  ev t t' h e := ⟨(ho.ev t t' e).noV h, ho.ev t t' e⟩
  step key l r θ hm h := by
    have := (ho.gt _ _ _ hm).subst θ
    exact ⟨Ge.noV (Or.inr this) h, Or.inr this⟩
  chain key l r x s hm hs h := chain_of (ho.own _ _ _ hm) h hs

theorem rwConst_conv {wd : Const → Int} {K : Int} {ev R V} (ho : Oriented wd ev R V) (hw : WordInj wd) (hK : ∀ c, wd c ≤ K) :
    ∀ x, Conv (fun n => rwConst R n x) := by
  intro x
  induction x using (gt_wf hw hK).induction with
  | _ x ih =>
    refine Conv.shift ?_
    simp only [rwConst]
    cases e : findConst x (R (headKey x)) with
    | none => exact Conv.const (by simp)
    | some b => exact (ih b (ho.gt _ _ _ (findConst_spec e))).tick

theorem walk_conv {s : St} (hc : NoChain s) (t : Term) : ∃ y N, ∀ n, N ≤ n → walk s.b n t = some y := by
  cases t with
  | const c => exact ⟨.const c, 1, fun n hn => by obtain ⟨m, rfl⟩ : ∃ m, n = m + 1 := ⟨n - 1, by omega⟩; simp [walk]⟩
  | app f as => exact ⟨.app f as, 1, fun n hn => by obtain ⟨m, rfl⟩ : ∃ m, n = m + 1 := ⟨n - 1, by omega⟩; simp [walk]⟩
  | var v =>
    cases hb : s.b v with
    | none =>
      exact ⟨.var v, 1, fun n hn => by obtain ⟨m, rfl⟩ : ∃ m, n = m + 1 := ⟨n - 1, by omega⟩; simp [walk, hb]⟩
    | some u =>
      refine ⟨u, 2, fun n hn => ?_⟩
      obtain ⟨m, rfl⟩ : ∃ m, n = m + 2 := ⟨n - 2, by omega⟩
      have hu := hc v u hb
      cases u with
      | const c => simp [walk, hb]
      | app f as => simp [walk, hb]
      | var w => simp [walk, hb, hu w (by simp)]

theorem buildS_conv_app {ev : Term → Option Term} {s : St} (f : Const) (as : List Term)
    (h : ∀ a ∈ as, Conv (fun n => buildS ev s n a)) : Conv (fun n =>
      (mapR (buildS ev s n) as).bind fun as' => match ev (.app f as') with
        | none => .illegal
        | some r => .ok r 0) := by
  refine Conv.bind (Conv.mapR h) ?_
  intro as' _ _ _
  cases e : ev (.app f as') with
  | none => exact Conv.const (by simp)
  | some r => exact Conv.const (by simp)

theorem Conv.congr_from {α : Type} {f g : Nat → ROut α} {N : Nat} (h : Conv g) (e : ∀ n, N ≤ n → f n = g n) : Conv f := by
  obtain ⟨o, ho, M, hM⟩ := h
  exact ⟨o, ho, max N M, fun n hn => by rw [e n (by omega), hM n (by omega)]⟩

theorem buildS_conv_free {ev : Term → Option Term} {s : St} : ∀ t : Term, (∀ w ∈ vars t, s.b w = none) →
    Conv (fun n => buildS ev s n t) := by
  intro t
  induction t using ind with
  | hv v =>
    intro h
    refine Conv.shift ?_
    simp only [buildS, walk, h v (by simp)]
    exact Conv.const (by simp)
  | hc c =>
    intro _
    refine Conv.shift ?_
    simp only [buildS, walk]
    exact Conv.const (by simp)
  | ha f as ih =>
    intro h
    refine Conv.shift ?_
    simp only [buildS, walk]
    refine buildS_conv_app f as ?_
    intro a ha
    exact ih a ha (fun w hw => h w (by rw [vars_app, mem_varsL]; exact ⟨a, ha, hw⟩))

theorem buildS_conv {ev : Term → Option Term} {s : St} (hc : NoChain s) : ∀ t : Term, Conv (fun n => buildS ev s n t) := by
  intro t
  induction t using ind with
  | hv v =>
    cases hb : s.b v with
    | none => exact buildS_conv_free _ (by simp [hb])
    | some u =>
      have hu := hc v u hb
      have hcu := buildS_conv_free (ev := ev) u hu
      refine Conv.shift ?_
      refine Conv.congr_from (N := 1) (g := fun n => buildS ev s (n + 1) u) ?_ ?_
      · obtain ⟨o, ho, N, hN⟩ := hcu
        exact ⟨o, ho, N, fun n hn => hN (n + 1) (by omega)⟩
      · intro n hn
        obtain ⟨m, rfl⟩ : ∃ m, n = m + 1 := ⟨n - 1, by omega⟩
        simp only [buildS]
        have e1 : walk s.b (m + 1 + 1) (.var v) = walk s.b (m + 1 + 1) u := by
          cases u with
          | const c => simp [walk, hb]
          | app f as => simp [walk, hb]
          | var w => simp [walk, hb, hu w (by simp)]
        rw [e1]
  | hc c => exact buildS_conv_free _ (by simp)
  | ha f as ih =>
    refine Conv.shift ?_
    simp only [buildS, walk]
    exact buildS_conv_app f as ih

theorem rwTerm_conv {wd : Const → Int} {K : Int} {ev R V} (ho : Oriented wd ev R V) (hw : WordInj wd) (hK : ∀ c, wd c ≤ K)
    {x t : Term} (ih : ∀ y, Gt wd x y → (∀ v ∈ vars y, ¬ V v) → Conv (fun n => rwBuild ev R n y))
    (hx : ∀ v ∈ vars t, ¬ V v) (hge : Ge wd x t) : Conv (fun n => rwTerm ev R n t) := by
  have hrel := ho.rel hw
  have again : ∀ b, Gt wd x b → (∀ v ∈ vars b, ¬ V v) → Conv (fun n => rwAgain ev R n b) := by
    intro b hb hv
    refine Conv.shift ?_
    simp only [rwAgain]
    cases b with
    | var v => exact Conv.const (by simp)
    | const c => exact rwConst_conv ho hw hK _
    | app f as => exact ih _ hb hv
  refine Conv.shift ?_
  simp only [rwTerm]
  cases e : findRule t (R (headKey t)) with
  | none => exact Conv.const (by simp)
  | ub => exact Conv.const (by simp)
  | rule r s =>
    obtain ⟨l, hm, hs⟩ := findRule_spec e
    have hc := chain_of (ho.own _ _ _ hm) hx hs
    have hxe : subst s.val l = t := (matchT_sound l St.empty t s hs).2.1
    have hg : Gt wd t (subst s.val r) := by
      have := (ho.gt _ _ _ hm).subst s.val
      rwa [hxe] at this
    have hgx := hge.trans_gt hw hg
    have hv := VarLe.noV (V := V) hg.1 hx
    simp only
    refine Conv.tick ?_
    cases r with
    | const c => exact rwConst_conv ho hw hK _
    | var v =>
      simp only
      cases eb : s.b v with
      | none => exact Conv.const (by simp)
      | some b =>
        have e3 : subst s.val (.var v) = b := by simp [St.val, eb]
        rw [e3] at hgx hv
        exact again b hgx hv
    | app f as =>
      refine Conv.bind (buildS_conv hc _) ?_
      intro b n k hb
      obtain ⟨g2, q2⟩ := buildS_rel hrel hc hb hv
      exact again b (hgx.trans_ge hw q2) g2

theorem rwBuild_conv {wd : Const → Int} {K : Int} {ev R V} (ho : Oriented wd ev R V) (hw : WordInj wd) (hK : ∀ c, wd c ≤ K) :
    ∀ x : Term, (∀ v ∈ vars x, ¬ V v) → Conv (fun n => rwBuild ev R n x) := by
  have hrel := ho.rel hw
  intro x
  induction x using (gt_wf hw hK).induction with
  | _ x ih =>
    intro hx
    refine Conv.shift ?_
    simp only [rwBuild]
    cases x with
    | var v => exact Conv.const (by simp)
    | const c => exact rwConst_conv ho hw hK _
    | app f as =>
      simp only
      refine Conv.bind (rwConst_conv ho hw hK _) ?_
      intro f' n1 k1 h1
      have hga := hrel.gargs f as hx
      refine Conv.bind (Conv.mapR (fun a ha => ih a (gt_sub ha) (hga a ha))) ?_
      intro as' n2 k2 h3
      cases f' with
      | var v => exact Conv.const (by simp)
      | app _ _ => exact Conv.const (by simp)
      | const g =>
        simp only
        obtain ⟨g0, q0⟩ := hrel.head f g as _ _ hx h1
        have ha := mapR_ok h3
        have hq : All2 (Ge wd) as as' := ha.imp (fun a ha b ⟨j, hb⟩ => ((rw_rel hrel n2).1 _ _ _ hb (hga a ha)).2)
        have hg' : ∀ b ∈ as', ∀ v ∈ vars b, ¬ V v := ha.right (fun a ha b ⟨j, hb⟩ => ((rw_rel hrel n2).1 _ _ _ hb (hga a ha)).1)
        have g1 := hrel.gapp _ _ as' g0 hq.length hg'
        have q1 := hrel.trans _ _ _ q0 (hrel.app g _ _ hq)
        cases er : ev (.app g as') with
        | none => exact Conv.const (by simp)
        | some r =>
          obtain ⟨g2, q2⟩ := hrel.ev _ _ g1 er
          simp only
          split
          · exact Conv.const (by simp)
          · exact rwTerm_conv ho hw hK (fun y h1 h2 => ih y h1 h2) g2 (hrel.trans _ _ _ q1 q2)

/-! ### Results cannot be rewritten further -/

mutual
/-- subterms, the term included -/
def subterms : Term → List Term
  | .var v => [.var v]
  | .const c => [.const c]
  | .app f as => .app f as :: subtermsL as
def subtermsL : List Term → List Term
  | [] => []
  | a :: as => subterms a ++ subtermsL as
end

theorem mem_subtermsL {t : Term} {as : List Term} : t ∈ subtermsL as ↔ ∃ a ∈ as, t ∈ subterms a := by
  induction as with
  | nil => simp [subtermsL]
  | cons a as ih => simp [subtermsL, ih]

/-- no rule applies anywhere in the term -/
def Irred (rules : Term × Term → Prop) (t : Term) : Prop :=
  ∀ u ∈ subterms t, ∀ l r, rules (l, r) → ¬ ∃ θ, subst θ l = u

theorem headKey_subst {l : Term} {θ : Nat → Term} (h : ∀ v, l ≠ .var v) : headKey (subst θ l) = headKey l := by
  cases l with
  | var v => exact absurd rfl (h v)
  | const c => simp [headKey]
  | app f as => simp [headKey]

section
variable {R : Term → List (Term × Term)} {rules : Term × Term → Prop}

theorem rwConst_irred (hc : ∀ l r, rules (l, r) → (l, r) ∈ R (headKey l)) (hv : ∀ l r, rules (l, r) → ∀ v, l ≠ .var v)
    (hcc : ∀ key l r, (l, r) ∈ R key → ∀ c, l = .const c → ∃ d, r = .const d) :
    ∀ {n c y k}, rwConst R n (.const c) = .ok y k → ∃ d, y = .const d ∧ Irred rules y := by
  intro n
  induction n with
  | zero => intro c y k h; simp [rwConst] at h
  | succ n ih =>
    intro c y k h
    simp only [rwConst] at h
    split at h
    · rename_i e
      cases h
      refine ⟨c, rfl, ?_⟩
      intro u hu l r hr
      simp only [subterms, List.mem_singleton] at hu
      subst hu
      rintro ⟨θ, hθ⟩
      cases l with
      | var v => exact hv _ _ hr v rfl
      | app f as => simp at hθ
      | const d =>
        simp only [subst_const, Term.const.injEq] at hθ
        subst hθ
        exact findConst_none e _ (hc _ _ hr) rfl
    · rename_i b e
      obtain ⟨j, h1, _⟩ := ROut.tick_ok h
      obtain ⟨d, rfl⟩ := hcc _ _ _ (findConst_spec e) c rfl
      exact ih h1

theorem rw_irred (hc : ∀ l r, rules (l, r) → (l, r) ∈ R (headKey l)) (hv : ∀ l r, rules (l, r) → ∀ v, l ≠ .var v)
    (hcc : ∀ key l r, (l, r) ∈ R key → ∀ c, l = .const c → ∃ d, r = .const d) : ∀ n,
    (∀ x y k, rwBuild some R n x = .ok y k → Irred rules y) ∧
    (∀ f as y k, rwTerm some R n (.app f as) = .ok y k → (∀ a ∈ as, Irred rules a) → Irred rules y) ∧
    (∀ x y k, rwAgain some R n x = .ok y k → Irred rules y) := by
  have hvar : ∀ v, Irred rules (.var v) := by
    intro v u hu l r hr
    simp only [subterms, List.mem_singleton] at hu
    subst hu
    rintro ⟨θ, hθ⟩
    cases l with
    | var v => exact hv _ _ hr v rfl
    | app f as => simp at hθ
    | const d => simp at hθ
  intro n
  induction n with
  | zero =>
    refine ⟨?_, ?_, ?_⟩
    · intro x y k h; simp [rwBuild] at h
    · intro f as y k h; simp [rwTerm] at h
    · intro x y k h; simp [rwAgain] at h
  | succ n ih =>
    obtain ⟨ihb, iht, iha⟩ := ih
    refine ⟨?_, ?_, ?_⟩
    · intro x y k h
      simp only [rwBuild] at h
      cases x with
      | var v => cases h; exact hvar v
      | const c => exact (rwConst_irred hc hv hcc h).choose_spec.2
      | app f as =>
        simp only at h
        obtain ⟨f', i, j, h1, h2, _⟩ := ROut.bind_ok h
        obtain ⟨as', i2, j2, h3, h4, _⟩ := ROut.bind_ok h2
        have hg' : ∀ b ∈ as', Irred rules b := (mapR_ok h3).right (fun a ha b ⟨j, hb⟩ => ihb _ _ _ hb)
        cases f' with
        | var v => cases h4
        | app _ _ => cases h4
        | const g =>
          have hb : ((Term.app g as').beq (.const aTrue) || (Term.app g as').beq (.const aFalse)) = false := by
            simp [Term.beq]
          simp only [hb, Bool.false_eq_true, if_false] at h4
          exact iht _ _ _ _ h4 hg'
    · intro f as y k h hg
      simp only [rwTerm] at h
      split at h
      · rename_i e
        cases h
        intro u hu l r hr
        simp only [subterms, List.mem_cons, mem_subtermsL] at hu
        rcases hu with rfl | ⟨a, ha, hu⟩
        · intro hex
          obtain ⟨θ, hθ⟩ := hex
          have hk := headKey_subst (θ := θ) (hv _ _ hr)
          rw [hθ] at hk
          rw [hk] at e
          exact findRule_none e _ (hc _ _ hr) ⟨θ, hθ⟩
        · exact hg a ha u hu l r hr
      · cases h
      · rename_i r s e
        obtain ⟨j, h1, _⟩ := ROut.tick_ok h
        cases r with
        | const c => exact (rwConst_irred hc hv hcc h1).choose_spec.2
        | var v =>
          simp only at h1
          split at h1
          · cases h1
          · exact iha _ _ _ h1
        | app f as =>
          simp only at h1
          obtain ⟨b, i, j, h2, h3, _⟩ := ROut.bind_ok h1
          exact iha _ _ _ h3
    · intro x y k h
      simp only [rwAgain] at h
      cases x with
      | var v => cases h; exact hvar v
      | const c => exact (rwConst_irred hc hv hcc h).choose_spec.2
      | app f as => exact ihb _ _ _ h
end

end Gkc
