import Verif.Unify
/- Lemmas about equality, matching, unification and the binding stack. -/
namespace Gkc
open Term

/-! ### equality -/

theorem eqTermL_iff : ∀ (as : List Term), (∀ a ∈ as, ∀ t, eqTerm a t = true ↔ a = t) →
    ∀ bs, as.length = bs.length → (eqTermL as bs = true ↔ as = bs) := by
  intro as
  induction as with
  | nil => intro _ bs h; cases bs <;> simp_all [eqTermL]
  | cons a as ih =>
    intro h bs hl
    cases bs with
    | nil => simp at hl
    | cons b bs =>
      have h1 := h a List.mem_cons_self b
      have h2 := ih (fun s hs => h s (List.mem_cons_of_mem _ hs)) bs (by simpa using hl)
      simp only [eqTermL, List.cons.injEq]
      rcases Bool.eq_false_or_eq_true (eqTerm a b) with e | e
      · have e' := h1.1 e
        rw [if_neg (by simp [e]), h2]; simp [e']
      · have : a ≠ b := fun hh => by rw [h1.2 hh] at e; cases e
        simp [e, this]

/-- the equality test decides equality of terms -/
theorem eqTerm_iff : ∀ (s t : Term), eqTerm s t = true ↔ s = t := by
  intro s
  induction s using ind with
  | hv v => intro t; cases t <;> simp [eqTerm]
  | hc c => intro t; cases t <;> simp [eqTerm]
  | ha f as ih =>
    intro t
    cases t with
    | var v => simp [eqTerm]
    | const c => simp [eqTerm]
    | app g bs =>
      simp only [eqTerm, Term.app.injEq]
      by_cases hl : as.length = bs.length
      · by_cases hf : f = g
        · simp [hl, hf, eqTermL_iff as ih bs hl]
        · simp [hl, hf]
      · have : as ≠ bs := fun h => hl (by rw [h])
        simp [hl, this]

theorem eqTerm_eq_decide (s t : Term) : eqTerm s t = decide (s = t) := by
  rw [Bool.eq_iff_iff, eqTerm_iff]; simp

/-! ### the binding stack -/

namespace St

/-- `st'` arises from `st` by pushing bindings of variables free in `st` -/
def Ext (st st' : St) : Prop :=
  ∃ new, st'.trail = new ++ st.trail ∧ new.Nodup ∧
    (∀ v ∈ new, st.b v = none ∧ st'.b v ≠ none) ∧ ∀ v, v ∉ new → st'.b v = st.b v

theorem Ext.refl (st : St) : Ext st st := ⟨[], by simp, List.nodup_nil, by simp, by simp⟩

theorem Ext.trans {a b c : St} (h1 : Ext a b) (h2 : Ext b c) : Ext a c := by
  obtain ⟨n1, e1, d1, f1, g1⟩ := h1
  obtain ⟨n2, e2, d2, f2, g2⟩ := h2
  refine ⟨n2 ++ n1, by rw [e2, e1, List.append_assoc], ?_, ?_, ?_⟩
  · rw [List.nodup_append]
    refine ⟨d2, d1, ?_⟩
    intro v hv w hw e
    subst e
    exact (f1 v hw).2 (f2 v hv).1
  · intro v hv
    rw [List.mem_append] at hv
    rcases hv with hv | hv
    · have hn : v ∉ n1 := fun hm => (f1 v hm).2 (f2 v hv).1
      exact ⟨by rw [← g1 v hn]; exact (f2 v hv).1, (f2 v hv).2⟩
    · refine ⟨(f1 v hv).1, ?_⟩
      have hn : v ∉ n2 := fun hm => (f1 v hv).2 (f2 v hm).1
      rw [g2 v hn]; exact (f1 v hv).2
  · intro v hv
    rw [List.mem_append, not_or] at hv
    rw [g2 v hv.1, g1 v hv.2]

theorem Ext.set {st : St} {v : Nat} {t : Term} (h : st.b v = none) : Ext st (st.set v t) := by
  refine ⟨[v], by simp [St.set], by simp, ?_, ?_⟩
  · intro w hw; simp at hw; subst hw; simp [St.set, h]
  · intro w hw; simp at hw; simp [St.set, hw]

/-- values already assigned stay -/
theorem Ext.mono {st st' : St} (h : Ext st st') {v : Nat} {t : Term} (hb : st.b v = some t) :
    st'.b v = some t := by
  obtain ⟨n, _, _, f, g⟩ := h
  have : v ∉ n := fun hm => by rw [(f v hm).1] at hb; cases hb
  rw [g v this, hb]

theorem Ext.none_of {st st' : St} (h : Ext st st') {v : Nat} (hb : st'.b v = none) :
    st.b v = none := by
  cases hh : st.b v with
  | none => rfl
  | some t => rw [h.mono hh] at hb; cases hb

/-- clearing down to the old stack height restores the old state -/
theorem Ext.clearTo {st st' : St} (h : Ext st st') : st'.clearTo st.trail.length = st := by
  obtain ⟨n, e, _, f, g⟩ := h
  cases st with
  | mk b tr =>
  simp only at e f g
  have hl : st'.trail.length - tr.length = n.length := by rw [e]; simp
  simp only [St.clearTo, hl]
  rw [e]
  simp only [List.take_left', List.drop_left', St.mk.injEq, and_true]
  funext w
  simp only [unset]
  by_cases hw : w ∈ n
  · simp [hw, (f w hw).1]
  · simp [hw, g w hw]

/-- the stack lists exactly the bound variables, once each -/
def Inv (st : St) : Prop := st.trail.Nodup ∧ ∀ v, v ∈ st.trail ↔ st.b v ≠ none

theorem Inv.empty : Inv St.empty := ⟨List.nodup_nil, by simp [St.empty]⟩

theorem Inv.ext {st st' : St} (hi : Inv st) (h : Ext st st') : Inv st' := by
  obtain ⟨n, e, d, f, g⟩ := h
  refine ⟨?_, ?_⟩
  · rw [e, List.nodup_append]
    refine ⟨d, hi.1, ?_⟩
    intro v hv w hw ee; subst ee
    exact ((hi.2 v).1 hw) (f v hv).1
  · intro v
    rw [e, List.mem_append]
    by_cases hv : v ∈ n
    · simp [hv, (f v hv).2]
    · simp [hv, g v hv, hi.2 v]

theorem Inv.clear {st : St} (hi : Inv st) : st.clear = St.empty := by
  cases st with
  | mk b tr =>
  simp only [St.clear, St.empty, St.mk.injEq, and_true]
  funext w
  simp only [unset]
  by_cases hw : w ∈ tr
  · simp [hw]
  · simp only [hw, if_false]
    have := hi.2 w
    simp only at this
    exact Classical.not_not.1 fun hc => hw (this.2 hc)

end St

/-! ### matching -/

/-- state of a result -/
def MRes.st? : MRes → Option St
  | .ok s => some s
  | .fail s => some s
  | .ub => none

mutual
theorem matchT_ext (st : St) (x y : Term) : ∀ s, (matchT st x y).st? = some s → St.Ext st s := by
  intro s h
  match x with
  | .var v =>
    simp only [matchT] at h
    split at h
    · rename_i hb
      simp only [MRes.st?, Option.some.injEq] at h; subst h
      exact St.Ext.set hb
    · split at h <;> (simp only [MRes.st?, Option.some.injEq] at h; subst h; exact St.Ext.refl _)
  | .const c =>
    simp only [matchT] at h
    split at h
    · simp only [MRes.st?, Option.some.injEq] at h; subst h; exact St.Ext.refl _
    · split at h
      · split at h
        · simp only [MRes.st?, Option.some.injEq] at h; subst h; exact St.Ext.refl _
        · simp [MRes.st?] at h
      · simp only [MRes.st?, Option.some.injEq] at h; subst h; exact St.Ext.refl _
  | .app f as =>
    simp only [matchT] at h
    split at h
    · split at h
      · simp only [MRes.st?, Option.some.injEq] at h; subst h; exact St.Ext.refl _
      · split at h
        · simp only [MRes.st?, Option.some.injEq] at h; subst h; exact St.Ext.refl _
        · exact matchTL_ext st as _ s h
    · simp only [MRes.st?, Option.some.injEq] at h; subst h; exact St.Ext.refl _
theorem matchTL_ext (st : St) (as bs : List Term) :
    ∀ s, (matchTL st as bs).st? = some s → St.Ext st s := by
  intro s h
  match as, bs with
  | a :: as, b :: bs =>
    simp only [matchTL] at h
    split at h
    · rename_i st' e
      have h1 := matchT_ext st a b st' (by rw [e]; rfl)
      exact h1.trans (matchTL_ext st' as bs s h)
    · exact matchT_ext st a b s h
  | [], bs => simp [matchTL, MRes.st?] at h; subst h; exact St.Ext.refl _
  | a :: as, [] => simp [matchTL, MRes.st?] at h; subst h; exact St.Ext.refl _
end

/-- variables bound by a successful match are variables of the pattern, and all of those get
bound -/
theorem matchT_sound : ∀ (x : Term) (st : St) (y : Term) (s : St), matchT st x y = .ok s →
    (∀ v ∈ vars x, s.b v ≠ none) ∧ subst s.val x = y ∧
    (∀ v, v ∉ vars x → s.b v = st.b v) := by
  intro x
  induction x using ind with
  | hv v =>
    intro st y s h
    simp only [matchT] at h
    split at h
    · simp only [MRes.ok.injEq] at h; subst h
      refine ⟨by simp [St.set], by simp [St.val, St.set], ?_⟩
      intro w hw; simp at hw; simp [St.set, hw]
    · rename_i t hb
      split at h
      · rename_i he
        simp only [MRes.ok.injEq] at h; subst h
        rw [eqTerm_iff] at he; subst he
        exact ⟨by simp [hb], by simp [St.val, hb], fun _ _ => rfl⟩
      · cases h
  | hc c =>
    intro st y s h
    simp only [matchT] at h
    split at h
    · rename_i he
      simp only [MRes.ok.injEq] at h; subst h
      rw [eqTerm_iff] at he; subst he
      exact ⟨by simp, by simp, fun _ _ => rfl⟩
    · split at h
      · split at h <;> cases h
      · cases h
  | ha f as ih =>
    intro st y s h
    simp only [matchT] at h
    split at h
    · rename_i g bs
      split at h
      · cases h
      · rename_i hl
        split at h
        · cases h
        · rename_i hf
          have hl : as.length = bs.length := by simpa using hl
          have hf : f = g := by simpa using hf
          subst hf
          have key : ∀ (as : List Term), (∀ t ∈ as, ∀ (st : St) (y : Term) (s : St),
              matchT st t y = .ok s → (∀ v ∈ vars t, s.b v ≠ none) ∧ subst s.val t = y ∧
                (∀ v, v ∉ vars t → s.b v = st.b v)) →
              ∀ (bs : List Term) (st s : St), as.length = bs.length → matchTL st as bs = .ok s →
              (∀ v ∈ varsL as, s.b v ≠ none) ∧ as.map (subst s.val) = bs ∧
              (∀ v, v ∉ varsL as → s.b v = st.b v) := by
            intro as
            induction as with
            | nil =>
              intro _ bs st s hl h
              cases bs with
              | nil => simp [matchTL] at h; subst h; simp
              | cons => simp at hl
            | cons a as ih2 =>
              intro ih bs st s hl h
              cases bs with
              | nil => simp at hl
              | cons b bs =>
                simp only [matchTL] at h
                split at h
                · rename_i st1 e
                  obtain ⟨p1, p2, p3⟩ := ih a List.mem_cons_self st b st1 e
                  obtain ⟨q1, q2, q3⟩ := ih2 (fun t ht => ih t (List.mem_cons_of_mem _ ht)) bs st1 s
                    (by simpa using hl) h
                  have hx := matchTL_ext st1 as bs s (by rw [h]; rfl)
                  have stay : ∀ v ∈ vars a, s.b v = st1.b v := by
                    intro v hv
                    cases hb : st1.b v with
                    | none => exact absurd hb (p1 v hv)
                    | some t => exact hx.mono hb
                  refine ⟨?_, ?_, ?_⟩
                  · intro v hv
                    simp only [varsL_cons, List.mem_append] at hv
                    rcases hv with hv | hv
                    · rw [stay v hv]; exact p1 v hv
                    · exact q1 v hv
                  · simp only [List.map_cons, List.cons.injEq, q2, and_true]
                    rw [← p2]
                    apply subst_congr
                    intro v hv
                    simp [St.val, stay v hv]
                  · intro v hv
                    simp only [varsL_cons, List.mem_append, not_or] at hv
                    rw [q3 v hv.2, p3 v hv.1]
                · rename_i hne
                  exact absurd h (hne s)
          obtain ⟨p1, p2, p3⟩ := key as ih bs st s hl h
          refine ⟨by simpa using p1, by simp [p2], by simpa using p3⟩
    · cases h

/-- `θ` agrees with the values assigned -/
def Agrees (θ : Nat → Term) (st : St) : Prop := ∀ v t, st.b v = some t → θ v = t

theorem matchT_complete : ∀ (x : Term) (st : St) (θ : Nat → Term), Agrees θ st →
    ∃ s, matchT st x (subst θ x) = .ok s ∧ Agrees θ s := by
  intro x
  induction x using ind with
  | hv v =>
    intro st θ ha
    simp only [matchT, subst_var]
    split
    · refine ⟨_, rfl, ?_⟩
      intro w t hw
      simp only [St.set] at hw
      split at hw
      · rename_i e; subst e; simpa using hw
      · exact ha w t hw
    · rename_i t hb
      rw [ha v t hb, (eqTerm_iff t t).2 rfl]
      exact ⟨st, rfl, ha⟩
  | hc c =>
    intro st θ ha
    refine ⟨st, ?_, ha⟩
    simp [matchT, (eqTerm_iff (.const c) (.const c)).2 rfl]
  | ha f as ih =>
    intro st θ ha
    have key : ∀ (as : List Term), (∀ t ∈ as, ∀ (st : St) (θ : Nat → Term), Agrees θ st →
        ∃ s, matchT st t (subst θ t) = .ok s ∧ Agrees θ s) →
        ∀ (st : St), Agrees θ st →
        ∃ s, matchTL st as (as.map (subst θ)) = .ok s ∧ Agrees θ s := by
      intro as
      induction as with
      | nil => intro _ st ha; exact ⟨st, by simp [matchTL], ha⟩
      | cons a as ih2 =>
        intro ih st ha
        obtain ⟨s1, e1, a1⟩ := ih a List.mem_cons_self st θ ha
        obtain ⟨s2, e2, a2⟩ := ih2 (fun t ht => ih t (List.mem_cons_of_mem _ ht)) s1 a1
        exact ⟨s2, by simp [matchTL, e1, e2], a2⟩
    obtain ⟨s, e, a⟩ := key as ih st ha
    exact ⟨s, by simp [matchT, e], a⟩

mutual
/-- a constant other than a long string occurs -/
def hasNum : Term → Bool
  | .var _ => false
  | .const c => !c.isLongstr
  | .app _ as => hasNumL as
/-- in some term of the list -/
def hasNumL : List Term → Bool
  | [] => false
  | a :: as => hasNum a || hasNumL as
end

mutual
theorem matchT_no_ub (st : St) (x y : Term) (h : hasNum x = false) : matchT st x y ≠ .ub := by
  match x with
  | .var v =>
    simp only [matchT]
    split
    · simp
    · split <;> simp
  | .const c =>
    simp only [hasNum, Bool.not_eq_false'] at h
    simp only [matchT]
    split
    · simp
    · split <;> simp [h]
  | .app f as =>
    simp only [hasNum] at h
    simp only [matchT]
    split
    · split
      · simp
      · split
        · simp
        · exact matchTL_no_ub st as _ h
    · simp
theorem matchTL_no_ub (st : St) (as bs : List Term) (h : hasNumL as = false) :
    matchTL st as bs ≠ .ub := by
  match as, bs with
  | a :: as, b :: bs =>
    simp only [hasNumL, Bool.or_eq_false_iff] at h
    simp only [matchTL]
    split
    · exact matchTL_no_ub _ as bs h.2
    · exact matchT_no_ub st a b h.1
  | [], bs => simp [matchTL]
  | a :: as, [] => simp [matchTL]
end

/-! ### unification -/

/-- `θ` makes every binding an identity -/
def Solves (θ : Nat → Term) (b : Nat → Option Term) : Prop :=
  ∀ v t, b v = some t → θ v = subst θ t

theorem walk_solves {b : Nat → Option Term} {θ : Nat → Term} (h : Solves θ b) :
    ∀ {n x x'}, walk b n x = some x' → subst θ x = subst θ x' := by
  intro n
  induction n with
  | zero => intro x x' hw; simp [walk] at hw
  | succ n ih =>
    intro x x' hw
    cases x with
    | var v =>
      simp only [walk] at hw
      split at hw
      · simp only [Option.some.injEq] at hw; subst hw; rfl
      · rename_i t hb
        rw [← ih hw, subst_var, h v t hb]
    | const c => simp [walk] at hw; subst hw; rfl
    | app f as => simp [walk] at hw; subst hw; rfl

theorem walk_unbound {b : Nat → Option Term} : ∀ {n x v}, walk b n x = some (.var v) →
    b v = none := by
  intro n
  induction n with
  | zero => intro x v hw; simp [walk] at hw
  | succ n ih =>
    intro x v hw
    cases x with
    | var u =>
      simp only [walk] at hw
      split at hw
      · rename_i hb
        simp only [Option.some.injEq, Term.var.injEq] at hw; subst hw; exact hb
      · exact ih hw
    | const c => simp [walk] at hw
    | app f as => simp [walk] at hw

/-- the value of `v` mentions `w` -/
def Step (b : Nat → Option Term) (v w : Nat) : Prop := ∃ t, b v = some t ∧ w ∈ vars t

/-- `w` can be reached from `v` through values -/
inductive Reach (b : Nat → Option Term) : Nat → Nat → Prop
  | refl (v) : Reach b v v
  | head {u v w} : Step b u v → Reach b v w → Reach b u w

/-- no variable is reached from its own value -/
def Acyclic (b : Nat → Option Term) : Prop := ∃ rank : Nat → Nat, ∀ v w, Step b v w → rank w < rank v

theorem reach_walk {b : Nat → Option Term} {a : Nat} : ∀ {n x x'}, walk b n x = some x' →
    ((∃ v ∈ vars x, Reach b v a) ↔ (∃ v ∈ vars x', Reach b v a)) ∨ (∃ v, b v ≠ none ∧ v = a) := by
  intro n
  induction n with
  | zero => intro x x' hw; simp [walk] at hw
  | succ n ih =>
    intro x x' hw
    cases x with
    | var u =>
      simp only [walk] at hw
      split at hw
      · simp only [Option.some.injEq] at hw; subst hw; exact .inl Iff.rfl
      · rename_i t hb
        rcases ih hw with h | h
        · by_cases hua : u = a
          · exact .inr ⟨u, by simp [hb], hua⟩
          · refine .inl (Iff.trans ?_ h)
            simp only [vars_var, List.mem_singleton, exists_eq_left]
            constructor
            · intro hr
              cases hr with
              | refl => exact absurd rfl hua
              | head hs hr =>
                obtain ⟨t', ht', hv⟩ := hs
                rw [hb] at ht'; cases ht'
                exact ⟨_, hv, hr⟩
            · rintro ⟨v, hv, hr⟩
              exact .head ⟨t, hb, hv⟩ hr
        · exact .inr h
    | const c => simp [walk] at hw; subst hw; exact .inl Iff.rfl
    | app f as => simp [walk] at hw; subst hw; exact .inl Iff.rfl

theorem anyM_true {f : Term → Option Bool} : ∀ {ts}, anyM f ts = some true →
    ∃ t ∈ ts, f t = some true := by
  intro ts
  induction ts with
  | nil => intro h; simp [anyM] at h
  | cons t ts ih =>
    intro h
    simp only [anyM] at h
    split at h
    · cases h
    · rename_i e; exact ⟨t, List.mem_cons_self, e⟩
    · obtain ⟨u, hu, e⟩ := ih h
      exact ⟨u, List.mem_cons_of_mem _ hu, e⟩

theorem anyM_false {f : Term → Option Bool} : ∀ {ts}, anyM f ts = some false →
    ∀ t ∈ ts, f t = some false := by
  intro ts
  induction ts with
  | nil => intro _ t ht; cases ht
  | cons t ts ih =>
    intro h u hu
    simp only [anyM] at h
    split at h
    · cases h
    · cases h
    · rename_i e
      cases hu with
      | head => exact e
      | tail _ hu => exact ih h u hu

theorem sizeL_ge {θ : Nat → Term} {ts : List Term} {t : Term} (h : t ∈ ts) :
    size (subst θ t) ≤ sizeL (ts.map (subst θ)) :=
  size_le_sizeL (List.mem_map.2 ⟨t, h, rfl⟩)

/-- a positive occurs check: the variable's value is a part of the record -/
theorem occursIn_true {b : Nat → Option Term} {a : Nat} {θ : Nat → Term} (h : Solves θ b) :
    ∀ {n ts}, occursIn b a n ts = some true → size (θ a) ≤ sizeL (ts.map (subst θ)) := by
  intro n
  induction n with
  | zero => intro ts ho; simp [occursIn] at ho
  | succ n ih =>
    intro ts ho
    simp only [occursIn] at ho
    obtain ⟨t, ht, e⟩ := anyM_true ho
    have hle := sizeL_ge (θ := θ) ht
    split at e
    · cases e
    · rename_i w hw
      simp only [Option.some.injEq, beq_iff_eq] at e; subst e
      rw [walk_solves h hw] at hle; simpa using hle
    · cases e
    · rename_i us hw
      have := ih e
      rw [walk_solves h hw] at hle
      simp only [subst_app, size_app] at hle
      omega

/-- a negative occurs check: the variable is not reachable from the record -/
theorem occursIn_false {b : Nat → Option Term} {a : Nat} (ha : b a = none) :
    ∀ {n ts}, occursIn b a n ts = some false → ∀ v ∈ varsL ts, ¬ Reach b v a := by
  intro n
  induction n with
  | zero => intro ts ho; simp [occursIn] at ho
  | succ n ih =>
    intro ts ho v hv hr
    simp only [occursIn] at ho
    rw [mem_varsL] at hv
    obtain ⟨t, ht, hvt⟩ := hv
    have e := anyM_false ho t ht
    have hw' : ∀ {x'}, walk b n t = some x' → ∃ v ∈ vars x', Reach b v a := by
      intro x' hw
      rcases reach_walk (a := a) hw with hiff | ⟨u, hu, rfl⟩
      · exact hiff.1 ⟨v, hvt, hr⟩
      · exact absurd ha hu
    split at e
    · cases e
    · rename_i w hw
      obtain ⟨u, hu, hur⟩ := hw' hw
      simp at hu; subst hu
      have hwb := walk_unbound hw
      cases hur with
      | refl => simp at e
      | head hs _ =>
        obtain ⟨t', ht', _⟩ := hs
        rw [hwb] at ht'; cases ht'
    · rename_i c hw
      obtain ⟨u, hu, _⟩ := hw' hw
      simp at hu
    · rename_i us hw
      obtain ⟨u, hu, hur⟩ := hw' hw
      exact ih e u (by simpa using hu) hur

/-- binding an unbound variable to a term from which it is not reachable keeps the bindings
acyclic -/
theorem Acyclic.set {st : St} (h : Acyclic st.b) {a : Nat} {t : Term} (ha : st.b a = none)
    (hr : ∀ v ∈ vars t, ¬ Reach st.b v a) : Acyclic (st.set a t).b := by
  classical
  obtain ⟨rank, hk⟩ := h
  have hM : ∃ M, ∀ v ∈ vars t, rank v ≤ M := by
    generalize vars t = l
    induction l with
    | nil => exact ⟨0, by simp⟩
    | cons v l ih =>
      obtain ⟨M, hM⟩ := ih
      refine ⟨max M (rank v), ?_⟩
      intro w hw
      cases hw with
      | head => omega
      | tail _ hw => have := hM w hw; omega
  obtain ⟨M, hM⟩ := hM
  refine ⟨fun v => if Reach st.b v a then rank v + M + 1 else rank v, ?_⟩
  rintro v w ⟨s, hs, hws⟩
  simp only [St.set] at hs
  by_cases hva : v = a
  · subst hva
    simp only [if_true, Option.some.injEq] at hs; subst hs
    have h1 := hr w hws
    have h2 : Reach st.b v v := .refl v
    have h3 := hM w hws
    simp only [h1, h2, if_true, if_false]
    omega
  · rw [if_neg hva] at hs
    have hst : Step st.b v w := ⟨s, hs, hws⟩
    have h1 := hk v w hst
    by_cases hw : Reach st.b w a
    · have hv : Reach st.b v a := .head hst hw
      simp only [hw, hv, if_true]; omega
    · simp only [hw, if_false]
      split <;> omega

theorem solves_set {st : St} {a : Nat} {t : Term} (ha : st.b a = none) (θ : Nat → Term) :
    Solves θ (st.set a t).b ↔ Solves θ st.b ∧ θ a = subst θ t := by
  constructor
  · intro h
    refine ⟨?_, h a t (by simp [St.set])⟩
    intro v s hv
    have : v ≠ a := fun e => by subst e; rw [ha] at hv; cases hv
    exact h v s (by simp [St.set, this, hv])
  · rintro ⟨h1, h2⟩ v s hv
    simp only [St.set] at hv
    split at hv
    · rename_i e; subst e; simp at hv; subst hv; exact h2
    · exact h1 v s hv

/-- What a call of `unify` guarantees. -/
def UnifySpec (st : St) (x y : Term) (r : Bool) (st' : St) : Prop :=
  St.Ext st st' ∧ (Acyclic st.b → Acyclic st'.b) ∧
  (r = true → ∀ θ, Solves θ st'.b ↔ (Solves θ st.b ∧ subst θ x = subst θ y)) ∧
  (r = false → ∀ θ, Solves θ st.b → subst θ x ≠ subst θ y)

/-- the same for lists -/
def UnifySpecL (st : St) (xs ys : List Term) (r : Bool) (st' : St) : Prop :=
  St.Ext st st' ∧ (Acyclic st.b → Acyclic st'.b) ∧
  (r = true → ∀ θ, Solves θ st'.b ↔ (Solves θ st.b ∧ xs.map (subst θ) = ys.map (subst θ))) ∧
  (r = false → ∀ θ, Solves θ st.b → xs.map (subst θ) ≠ ys.map (subst θ))

theorem unifyL_spec {f : St → Term → Term → Option (Bool × St)}
    (hf : ∀ st x y r st', f st x y = some (r, st') → UnifySpec st x y r st') :
    ∀ (xs ys : List Term) (st : St) (r : Bool) (st' : St), xs.length = ys.length →
      unifyL f st xs ys = some (r, st') → UnifySpecL st xs ys r st' := by
  intro xs
  induction xs with
  | nil =>
    intro ys st r st' hl h
    cases ys with
    | nil =>
      simp only [unifyL, Option.some.injEq, Prod.mk.injEq] at h
      obtain ⟨rfl, rfl⟩ := h
      exact ⟨.refl _, id, by simp, by simp⟩
    | cons => simp at hl
  | cons a as ih =>
    intro ys st r st' hl h
    cases ys with
    | nil => simp at hl
    | cons c cs =>
      simp only [unifyL] at h
      split at h
      · cases h
      · rename_i st1 e
        obtain ⟨p1, p2, p3, _⟩ := hf _ _ _ _ _ e
        obtain ⟨q1, q2, q3, q4⟩ := ih cs st1 r st' (by simpa using hl) h
        refine ⟨p1.trans q1, q2 ∘ p2, ?_, ?_⟩
        · intro hr θ
          rw [q3 hr θ, p3 rfl θ]
          simp [and_assoc]
        · intro hr θ hs heq
          simp only [List.map_cons, List.cons.injEq] at heq
          exact q4 hr θ ((p3 rfl θ).2 ⟨hs, heq.1⟩) heq.2
      · rename_i st1 e
        simp only [Option.some.injEq, Prod.mk.injEq] at h
        obtain ⟨rfl, rfl⟩ := h
        obtain ⟨p1, p2, _, p4⟩ := hf _ _ _ _ _ e
        refine ⟨p1, p2, by simp, ?_⟩
        intro _ θ hs heq
        simp only [List.map_cons, List.cons.injEq] at heq
        exact p4 rfl θ hs heq.1

theorem spec_bind {st : St} {x y : Term} {a : Nat} {t : Term} (ha : st.b a = none)
    (hr : Acyclic st.b → ∀ v ∈ vars t, ¬ Reach st.b v a)
    (he : ∀ θ, Solves θ st.b → (subst θ x = subst θ y ↔ θ a = subst θ t)) :
    UnifySpec st x y true (st.set a t) := by
  refine ⟨.set ha, fun hc => hc.set ha (hr hc), ?_, by simp⟩
  intro _ θ
  rw [solves_set ha]
  constructor
  · rintro ⟨h1, h2⟩; exact ⟨h1, (he θ h1).2 h2⟩
  · rintro ⟨h1, h2⟩; exact ⟨h1, (he θ h1).1 h2⟩

theorem spec_true {st : St} {x y : Term} (h : ∀ θ, Solves θ st.b → subst θ x = subst θ y) :
    UnifySpec st x y true st :=
  ⟨.refl _, id, fun _ θ => ⟨fun hs => ⟨hs, h θ hs⟩, And.left⟩, by simp⟩

theorem spec_false {st : St} {x y : Term} (h : ∀ θ, Solves θ st.b → subst θ x ≠ subst θ y) :
    UnifySpec st x y false st :=
  ⟨.refl _, id, by simp, fun _ => h⟩

theorem unify_spec : ∀ (n : Nat) (st : St) (x y : Term) (r : Bool) (st' : St),
    unify n st x y = some (r, st') → UnifySpec st x y r st' := by
  intro n
  induction n with
  | zero => intro st x y r st' h; simp [unify] at h
  | succ n ih =>
    intro st x y r st' h
    simp only [unify] at h
    split at h
    case h_2 => cases h
    case h_1 x' y' hx hy =>
    have ex : ∀ θ, Solves θ st.b → subst θ x = subst θ x' := fun θ hs => walk_solves hs hx
    have ey : ∀ θ, Solves θ st.b → subst θ y = subst θ y' := fun θ hs => walk_solves hs hy
    have nostep : ∀ {w a}, st.b w = none → Reach st.b w a → a = w := by
      intro w a hw hr
      cases hr with
      | refl => rfl
      | head hs _ => obtain ⟨t, ht, _⟩ := hs; rw [hw] at ht; cases ht
    split at h
    · rename_i v w
      split at h
      · rename_i e; subst e
        simp only [Option.some.injEq, Prod.mk.injEq] at h
        obtain ⟨rfl, rfl⟩ := h
        exact spec_true fun θ hs => by rw [ex θ hs, ey θ hs]
      · rename_i e
        simp only [Option.some.injEq, Prod.mk.injEq] at h
        obtain ⟨rfl, rfl⟩ := h
        refine spec_bind (walk_unbound hx) ?_ ?_
        · intro _ u hu hr
          simp at hu; subst hu
          exact e (nostep (walk_unbound hy) hr)
        · intro θ hs; rw [ex θ hs, ey θ hs]; simp
    · rename_i v c
      simp only [Option.some.injEq, Prod.mk.injEq] at h
      obtain ⟨rfl, rfl⟩ := h
      refine spec_bind (walk_unbound hx) (by simp) ?_
      intro θ hs; rw [ex θ hs, ey θ hs]; simp
    · rename_i c w
      simp only [Option.some.injEq, Prod.mk.injEq] at h
      obtain ⟨rfl, rfl⟩ := h
      refine spec_bind (walk_unbound hy) (by simp) ?_
      intro θ hs; rw [ex θ hs, ey θ hs]; simp [eq_comm]
    · rename_i c d
      split at h
      · rename_i e; subst e
        simp only [Option.some.injEq, Prod.mk.injEq] at h
        obtain ⟨rfl, rfl⟩ := h
        exact spec_true fun θ hs => by rw [ex θ hs, ey θ hs]
      · rename_i e
        simp only [Option.some.injEq, Prod.mk.injEq] at h
        obtain ⟨rfl, rfl⟩ := h
        exact spec_false fun θ hs => by rw [ex θ hs, ey θ hs]; simpa using e
    · rename_i v g us
      split at h
      · cases h
      · rename_i ho
        simp only [Option.some.injEq, Prod.mk.injEq] at h
        obtain ⟨rfl, rfl⟩ := h
        refine spec_false fun θ hs => ?_
        rw [ex θ hs, ey θ hs]
        intro he
        have h1 := occursIn_true hs ho
        have h2 := congrArg size he
        simp only [subst_var, subst_app, size_app] at h2
        omega
      · rename_i ho
        simp only [Option.some.injEq, Prod.mk.injEq] at h
        obtain ⟨rfl, rfl⟩ := h
        refine spec_bind (walk_unbound hx) ?_ ?_
        · intro _ u hu
          exact occursIn_false (walk_unbound hx) ho u (by simpa using hu)
        · intro θ hs; rw [ex θ hs, ey θ hs]; simp
    · simp only [Option.some.injEq, Prod.mk.injEq] at h
      obtain ⟨rfl, rfl⟩ := h
      exact spec_false fun θ hs => by rw [ex θ hs, ey θ hs]; simp
    · rename_i f ts w
      split at h
      · cases h
      · rename_i ho
        simp only [Option.some.injEq, Prod.mk.injEq] at h
        obtain ⟨rfl, rfl⟩ := h
        refine spec_false fun θ hs => ?_
        rw [ex θ hs, ey θ hs]
        intro he
        have h1 := occursIn_true hs ho
        have h2 := congrArg size he
        simp only [subst_var, subst_app, size_app] at h2
        omega
      · rename_i ho
        simp only [Option.some.injEq, Prod.mk.injEq] at h
        obtain ⟨rfl, rfl⟩ := h
        refine spec_bind (walk_unbound hy) ?_ ?_
        · intro _ u hu
          exact occursIn_false (walk_unbound hy) ho u (by simpa using hu)
        · intro θ hs; rw [ex θ hs, ey θ hs]; simp [eq_comm]
    · simp only [Option.some.injEq, Prod.mk.injEq] at h
      obtain ⟨rfl, rfl⟩ := h
      exact spec_false fun θ hs => by rw [ex θ hs, ey θ hs]; simp
    · rename_i f ts g us
      split at h
      · rename_i hl
        simp only [Option.some.injEq, Prod.mk.injEq] at h
        obtain ⟨rfl, rfl⟩ := h
        refine spec_false fun θ hs => ?_
        rw [ex θ hs, ey θ hs]
        intro he
        simp only [subst_app, Term.app.injEq] at he
        exact hl (by simpa using congrArg List.length he.2)
      · rename_i hl
        split at h
        · rename_i hf
          simp only [Option.some.injEq, Prod.mk.injEq] at h
          obtain ⟨rfl, rfl⟩ := h
          refine spec_false fun θ hs => ?_
          rw [ex θ hs, ey θ hs]
          intro he
          simp only [subst_app, Term.app.injEq] at he
          exact hf he.1
        · rename_i hf
          have hl : ts.length = us.length := Decidable.not_not.1 hl
          have hf : f = g := Decidable.not_not.1 hf
          subst hf
          obtain ⟨p1, p2, p3, p4⟩ := unifyL_spec ih ts us st r st' hl h
          refine ⟨p1, p2, ?_, ?_⟩
          · intro hr θ
            rw [p3 hr θ]
            constructor
            · rintro ⟨h1, h2⟩; exact ⟨h1, by rw [ex θ h1, ey θ h1]; simp [h2]⟩
            · rintro ⟨h1, h2⟩
              rw [ex θ h1, ey θ h1] at h2
              exact ⟨h1, by simpa using h2⟩
          · intro hr θ hs he
            rw [ex θ hs, ey θ hs] at he
            exact p4 hr θ hs (by simpa using he)

/-! ### termination of unification -/

theorem walk_mono {b : Nat → Option Term} : ∀ {n m x r}, walk b n x = some r → n ≤ m →
    walk b m x = some r := by
  intro n
  induction n with
  | zero => intro m x r h; simp [walk] at h
  | succ n ih =>
    intro m x r h hle
    cases m with
    | zero => omega
    | succ m =>
      cases x with
      | var v =>
        simp only [walk] at h ⊢
        split
        · rename_i hb; rw [hb] at h; exact h
        · rename_i t hb; rw [hb] at h; exact ih h (by omega)
      | const c => simpa [walk] using h
      | app f as => simpa [walk] using h

theorem anyM_mono {f g : Term → Option Bool} (h : ∀ t r, f t = some r → g t = some r) :
    ∀ {ts r}, anyM f ts = some r → anyM g ts = some r := by
  intro ts
  induction ts with
  | nil => intro r hr; simpa [anyM] using hr
  | cons t ts ih =>
    intro r hr
    simp only [anyM] at hr ⊢
    split at hr
    · cases hr
    · rename_i e; rw [h _ _ e]; exact hr
    · rename_i e; rw [h _ _ e]; exact ih hr

theorem occursIn_mono {b : Nat → Option Term} {a : Nat} : ∀ {n m ts r},
    occursIn b a n ts = some r → n ≤ m → occursIn b a m ts = some r := by
  intro n
  induction n with
  | zero => intro m x r h; simp [occursIn] at h
  | succ n ih =>
    intro m ts r h hle
    cases m with
    | zero => omega
    | succ m =>
      simp only [occursIn] at h ⊢
      refine anyM_mono ?_ h
      intro t r ht
      split at ht
      · cases ht
      · rename_i e; rw [walk_mono e (by omega : n ≤ m)]; exact ht
      · rename_i e; rw [walk_mono e (by omega : n ≤ m)]; exact ht
      · rename_i e; rw [walk_mono e (by omega : n ≤ m)]; exact ih ht (by omega)

theorem unifyL_mono {f g : St → Term → Term → Option (Bool × St)}
    (h : ∀ st x y r, f st x y = some r → g st x y = some r) :
    ∀ {xs ys st r}, unifyL f st xs ys = some r → unifyL g st xs ys = some r := by
  intro xs
  induction xs with
  | nil => intro ys st r hr; cases ys <;> simpa [unifyL] using hr
  | cons x xs ih =>
    intro ys st r hr
    cases ys with
    | nil => simpa [unifyL] using hr
    | cons y ys =>
      simp only [unifyL] at hr ⊢
      split at hr
      · cases hr
      · rename_i e; rw [h _ _ _ _ e]; exact ih hr
      · rename_i e; rw [h _ _ _ _ e]; exact hr

theorem unify_mono : ∀ {n m st x y r}, unify n st x y = some r → n ≤ m →
    unify m st x y = some r := by
  intro n
  induction n with
  | zero => intro m st x y r h; simp [unify] at h
  | succ n ih =>
    intro m st x y r h hle
    cases m with
    | zero => omega
    | succ m =>
      have hnm : n ≤ m := by omega
      simp only [unify] at h ⊢
      split at h
      case h_2 => cases h
      case h_1 x' y' hx hy =>
      rw [walk_mono hx hnm, walk_mono hy hnm]
      simp only
      split at h
      · exact h
      · exact h
      · exact h
      · exact h
      · split at h
        · cases h
        · rename_i ho; simp only [occursIn_mono ho hnm]; exact h
        · rename_i ho; simp only [occursIn_mono ho hnm]; exact h
      · exact h
      · split at h
        · cases h
        · rename_i ho; simp only [occursIn_mono ho hnm]; exact h
        · rename_i ho; simp only [occursIn_mono ho hnm]; exact h
      · exact h
      · split at h
        · rename_i hl; rw [if_pos hl]; exact h
        · split at h
          · rename_i hl hf; rw [if_neg hl, if_pos hf]; exact h
          · rename_i hl hf
            rw [if_neg hl, if_neg hf]
            exact unifyL_mono (fun st x y r hr => ih hr hnm) h

/-- full instantiation to a given depth -/
def instN (b : Nat → Option Term) : Nat → Nat → Term
  | 0, v => .var v
  | n + 1, v => match b v with
    | none => .var v
    | some t => subst (instN b n) t

theorem instN_stable {b : Nat → Option Term} {rank : Nat → Nat}
    (hk : ∀ v w, Step b v w → rank w < rank v) :
    ∀ n m v, rank v < n → rank v < m → instN b n v = instN b m v := by
  intro n
  induction n with
  | zero => intro m v h; omega
  | succ n ih =>
    intro m v h1 h2
    cases m with
    | zero => omega
    | succ m =>
      simp only [instN]
      split
      · rfl
      · rename_i t hb
        apply subst_congr
        intro w hw
        have := hk v w ⟨t, hb, hw⟩
        exact ih m w (by omega) (by omega)

/-- acyclic bindings have a most general solution -/
theorem Acyclic.solution {b : Nat → Option Term} (h : Acyclic b) :
    ∃ θ, Solves θ b ∧ (∀ v, b v = none → θ v = .var v) ∧
      ∀ τ, Solves τ b → ∀ v, τ v = subst τ (θ v) := by
  obtain ⟨rank, hk⟩ := h
  refine ⟨fun v => instN b (rank v + 1) v, ?_, ?_, ?_⟩
  · intro v t hb
    show instN b (rank v + 1) v = _
    rw [instN]
    simp only [hb]
    apply subst_congr
    intro w hw
    have := hk v w ⟨t, hb, hw⟩
    exact instN_stable hk _ _ w (by omega) (by omega)
  · intro v hb; simp [instN, hb]
  · intro τ hs v
    suffices H : ∀ n v, τ v = subst τ (instN b n v) from H _ v
    intro n
    induction n with
    | zero => intro v; simp [instN]
    | succ n ih =>
      intro v
      simp only [instN]
      split
      · simp
      · rename_i t hb
        rw [hs v t hb, subst_subst]
        apply subst_congr
        intro w _
        exact ih w

theorem walk_total {b : Nat → Option Term} (h : Acyclic b) : ∀ x, ∃ n r, walk b n x = some r := by
  obtain ⟨rank, hk⟩ := h
  have key : ∀ k v, rank v < k → ∃ n r, walk b n (.var v) = some r := by
    intro k
    induction k with
    | zero => intro v h; omega
    | succ k ih =>
      intro v hv
      cases hb : b v with
      | none => exact ⟨1, .var v, by simp only [walk, hb]⟩
      | some t =>
        cases t with
        | var w =>
          have := hk v w ⟨.var w, hb, by simp⟩
          obtain ⟨n, r, e⟩ := ih w (by omega)
          exact ⟨n + 1, r, by simp only [walk, hb]; exact e⟩
        | const c => exact ⟨2, .const c, by simp [walk, hb]⟩
        | app f as => exact ⟨2, .app f as, by simp [walk, hb]⟩
  intro x
  cases x with
  | var v => exact key _ v (Nat.lt_succ_self _)
  | const c => exact ⟨1, .const c, by simp only [walk]⟩
  | app f as => exact ⟨1, .app f as, by simp only [walk]⟩

theorem anyM_total {f : Nat → Term → Option Bool}
    (hm : ∀ n m t r, f n t = some r → n ≤ m → f m t = some r) :
    ∀ ts, (∀ t ∈ ts, ∃ n r, f n t = some r) → ∃ n r, anyM (f n) ts = some r := by
  intro ts
  induction ts with
  | nil => intro _; exact ⟨0, _, rfl⟩
  | cons t ts ih =>
    intro h
    obtain ⟨n1, r1, e1⟩ := h t List.mem_cons_self
    obtain ⟨n2, r2, e2⟩ := ih (fun u hu => h u (List.mem_cons_of_mem _ hu))
    have f1 := hm n1 (max n1 n2) t r1 e1 (by omega)
    have f2 : anyM (f (max n1 n2)) ts = some r2 :=
      anyM_mono (fun t r ht => hm _ _ t r ht (by omega)) e2
    refine ⟨max n1 n2, ?_⟩
    simp only [anyM, f1]
    cases r1
    · exact ⟨r2, f2⟩
    · exact ⟨true, rfl⟩

theorem occursIn_total {b : Nat → Option Term} (h : Acyclic b) (a : Nat) :
    ∀ ts, ∃ n r, occursIn b a n ts = some r := by
  obtain ⟨θ, hs, _, _⟩ := h.solution
  suffices H : ∀ k ts, sizeL (ts.map (subst θ)) < k → ∃ n r, occursIn b a n ts = some r from
    fun ts => H _ ts (Nat.lt_succ_self _)
  intro k
  induction k with
  | zero => intro ts h; omega
  | succ k ih =>
    intro ts hk
    have key := anyM_total (f := fun n t => match walk b n t with
      | none => none
      | some (.var w) => some (w == a)
      | some (.const _) => some false
      | some (.app _ us) => occursIn b a n us) ?_ ts ?_
    · obtain ⟨n, r, e⟩ := key
      exact ⟨n + 1, r, by simp only [occursIn]; exact e⟩
    · intro n m t r ht hnm
      split at ht
      · cases ht
      · rename_i e; rw [walk_mono e hnm]; exact ht
      · rename_i e; rw [walk_mono e hnm]; exact ht
      · rename_i e; rw [walk_mono e hnm]; exact occursIn_mono ht hnm
    · intro t ht
      obtain ⟨n, t', e⟩ := walk_total h t
      have hle := sizeL_ge (θ := θ) ht
      rw [walk_solves hs e] at hle
      cases t' with
      | var w => exact ⟨n, w == a, by simp only [e]⟩
      | const c => exact ⟨n, false, by simp only [e]⟩
      | app f us =>
        simp only [subst_app, size_app] at hle
        obtain ⟨m, r, e'⟩ := ih us (by omega)
        refine ⟨max n m, r, ?_⟩
        simp only [walk_mono e (by omega : n ≤ max n m)]
        exact occursIn_mono e' (by omega)

/-- all variables used are below `N` -/
def Rng (N : Nat) (st : St) : Prop := ∀ v t, st.b v = some t → v < N ∧ ∀ w ∈ vars t, w < N

theorem Rng.walk {N : Nat} {st : St} (h : Rng N st) : ∀ {n x r}, walk st.b n x = some r →
    (∀ w ∈ vars x, w < N) → ∀ w ∈ vars r, w < N := by
  intro n
  induction n with
  | zero => intro x r e; simp [Gkc.walk] at e
  | succ n ih =>
    intro x r e hx
    cases x with
    | var v =>
      simp only [Gkc.walk] at e
      split at e
      · simp only [Option.some.injEq] at e; subst e; exact hx
      · rename_i t hb; exact ih e (h v t hb).2
    | const c => simp [Gkc.walk] at e; subst e; exact hx
    | app f as => simp [Gkc.walk] at e; subst e; exact hx

theorem Rng.set {N : Nat} {st : St} (h : Rng N st) {v t} (hv : v < N) (ht : ∀ w ∈ vars t, w < N) :
    Rng N (st.set v t) := by
  intro w s hw
  simp only [St.set] at hw
  split at hw
  · rename_i e; subst e; simp only [Option.some.injEq] at hw; subst hw; exact ⟨hv, ht⟩
  · exact h w s hw

theorem Rng.unify {N : Nat} : ∀ {n st x y r st'}, Rng N st → (∀ w ∈ vars x, w < N) →
    (∀ w ∈ vars y, w < N) → unify n st x y = some (r, st') → Rng N st' := by
  intro n
  induction n with
  | zero => intro st x y r st' _ _ _ h; simp [Gkc.unify] at h
  | succ n ih =>
    intro st x y r st' hr hx hy h
    simp only [Gkc.unify] at h
    split at h
    case h_2 => cases h
    case h_1 x' y' ex ey =>
    have hx' := hr.walk ex hx
    have hy' := hr.walk ey hy
    have fin : ∀ {q s}, Rng N s → some (q, s) = some (r, st') → Rng N st' := by
      intro q s hs e
      simp only [Option.some.injEq, Prod.mk.injEq] at e
      rw [← e.2]; exact hs
    split at h
    · split at h
      · exact fin hr h
      · exact fin (hr.set (hx' _ (by simp)) hy') h
    · exact fin (hr.set (hx' _ (by simp)) hy') h
    · exact fin (hr.set (hy' _ (by simp)) hx') h
    · split at h
      · exact fin hr h
      · exact fin hr h
    · split at h
      · cases h
      · exact fin hr h
      · exact fin (hr.set (hx' _ (by simp)) hy') h
    · exact fin hr h
    · split at h
      · cases h
      · exact fin hr h
      · exact fin (hr.set (hy' _ (by simp)) hx') h
    · exact fin hr h
    · split at h
      · exact fin hr h
      · split at h
        · exact fin hr h
        · rename_i f ts g us _ _
          simp only [vars_app] at hx' hy'
          have key : ∀ (ts us : List Term) (st : St), Rng N st → (∀ w ∈ varsL ts, w < N) →
              (∀ w ∈ varsL us, w < N) → unifyL (Gkc.unify n) st ts us = some (r, st') →
              Rng N st' := by
            intro ts
            induction ts with
            | nil =>
              intro us st hr _ _ h
              cases us <;>
                (simp only [unifyL, Option.some.injEq, Prod.mk.injEq] at h; rw [← h.2]; exact hr)
            | cons t ts ih2 =>
              intro us st hr hx' hy' h
              cases us with
              | nil =>
                simp only [unifyL, Option.some.injEq, Prod.mk.injEq] at h; rw [← h.2]; exact hr
              | cons u us =>
                simp only [varsL_cons, List.mem_append] at hx' hy'
                simp only [unifyL] at h
                split at h
                · cases h
                · rename_i st1 e
                  exact ih2 us st1
                    (ih hr (fun w hw => hx' w (.inl hw)) (fun w hw => hy' w (.inl hw)) e)
                    (fun w hw => hx' w (.inr hw)) (fun w hw => hy' w (.inr hw)) h
                · rename_i st1 e
                  have := ih hr (fun w hw => hx' w (.inl hw)) (fun w hw => hy' w (.inl hw)) e
                  simp only [Option.some.injEq, Prod.mk.injEq] at h
                  rw [← h.2]; exact this
          exact key ts us st hr hx' hy' h

/-- number of free variables below `N` -/
def freeCount (N : Nat) (st : St) : Nat := (List.range N).countP (fun v => (st.b v).isNone)

theorem countP_lt {α : Type} {p q : α → Bool} : ∀ {l : List α},
    (∀ x ∈ l, p x = true → q x = true) → (∃ x ∈ l, p x = false ∧ q x = true) →
    l.countP p < l.countP q := by
  intro l
  induction l with
  | nil => rintro _ ⟨x, hx, _⟩; cases hx
  | cons a l ih =>
    intro h ⟨x, hx, h1, h2⟩
    have hle := List.countP_mono_left (l := l) (p := p) (q := q)
      (fun y hy => h y (List.mem_cons_of_mem _ hy))
    have ha := h a List.mem_cons_self
    simp only [List.countP_cons]
    cases hx with
    | head => simp [h1, h2]; omega
    | tail _ hx =>
      have := ih (fun y hy => h y (List.mem_cons_of_mem _ hy)) ⟨x, hx, h1, h2⟩
      by_cases hp : p a = true
      · simp [hp, ha hp]; omega
      · simp only [hp]; simp; omega

theorem Ext_cases {N : Nat} {st st' : St} (h : St.Ext st st') (hr : Rng N st') :
    st' = st ∨ freeCount N st' < freeCount N st := by
  obtain ⟨new, e, d, f, g⟩ := h
  cases new with
  | nil =>
    left
    cases st; cases st'
    simp only [List.nil_append] at e
    simp only [St.mk.injEq]
    exact ⟨funext fun v => g v (by simp), e⟩
  | cons v new =>
    right
    apply countP_lt
    · intro w _ hw
      by_cases hm : w ∈ v :: new
      · rw [(f w hm).1]; rfl
      · rw [← g w hm]; exact hw
    · have hv := f v List.mem_cons_self
      cases hb : st'.b v with
      | none => exact absurd hb hv.2
      | some t => exact ⟨v, List.mem_range.2 (hr v t hb).1, by simp [hb], by simp [hv.1]⟩

theorem unify_total {N : Nat} : ∀ (st : St), Rng N st → Acyclic st.b → ∀ (x y : Term),
    (∀ w ∈ vars x, w < N) → (∀ w ∈ vars y, w < N) → ∃ n r, unify n st x y = some r := by
  suffices H : ∀ k st, freeCount N st < k → Rng N st → Acyclic st.b → ∀ (x y : Term),
      (∀ w ∈ vars x, w < N) → (∀ w ∈ vars y, w < N) → ∃ n r, unify n st x y = some r from
    fun st => H _ st (Nat.lt_succ_self _)
  intro k
  induction k with
  | zero => intro st h; omega
  | succ k ihk =>
    intro st hk hr hc
    obtain ⟨θ, hs, _, _⟩ := hc.solution
    suffices H : ∀ m x y, size (subst θ x) + size (subst θ y) < m → (∀ w ∈ vars x, w < N) →
        (∀ w ∈ vars y, w < N) → ∃ n r, unify n st x y = some r from
      fun x y => H _ x y (Nat.lt_succ_self _)
    intro m
    induction m with
    | zero => intro x y h; omega
    | succ m ihm =>
      intro x y hm hx hy
      obtain ⟨n1, x', ex⟩ := walk_total hc x
      obtain ⟨n2, y', ey⟩ := walk_total hc y
      have hx' := hr.walk ex hx
      have hy' := hr.walk ey hy
      rw [walk_solves hs ex, walk_solves hs ey] at hm
      have fin : ∀ n, n1 ≤ n → n2 ≤ n → (∃ r, unify (n + 1) st x' y' = some r) →
          walk st.b n x' = some x' → walk st.b n y' = some y' →
          ∃ n r, unify n st x y = some r := by
        intro n h1 h2 ⟨r, hr⟩ hx1 hy1
        refine ⟨n + 1, r, ?_⟩
        simp only [unify, hx1, hy1] at hr
        simp only [unify, walk_mono ex h1, walk_mono ey h2]
        exact hr
      have self : ∀ {n z z'}, walk st.b n z = some z' → ∀ k, 0 < k → walk st.b k z' = some z' := by
        intro n z z' hw k hk
        cases k with
        | zero => omega
        | succ k =>
          cases z' with
          | var v => simp only [walk, walk_unbound hw]
          | const c => simp [walk]
          | app f as => simp [walk]
      have sx := self ex
      have sy := self ey
      have base : ∀ n3, (∃ r, unify (n3 + 1) st x' y' = some r) → ∃ n r, unify n st x y = some r := by
        intro n3 ⟨r, h⟩
        refine fin (n1 + n2 + n3 + 1) (by omega) (by omega)
          ⟨r, unify_mono h (by omega)⟩ (sx _ (by omega)) (sy _ (by omega))
      have occ := fun a ts => occursIn_total hc a ts
      clear fin self
      cases x' with
      | var v =>
        cases y' with
        | var w =>
          refine base 1 ?_
          simp only [unify, sx 1 (by omega), sy 1 (by omega)]
          split <;> exact ⟨_, rfl⟩
        | const c =>
          refine base 1 ?_
          simp only [unify, sx 1 (by omega), sy 1 (by omega)]
          exact ⟨_, rfl⟩
        | app g us =>
          obtain ⟨n3, r, e⟩ := occ v us
          refine base (n3 + 1) ?_
          simp only [unify, sx (n3 + 1) (by omega), sy (n3 + 1) (by omega),
            occursIn_mono e (by omega : n3 ≤ n3 + 1)]
          cases r <;> exact ⟨_, rfl⟩
      | const c =>
        cases y' with
        | var w =>
          refine base 1 ?_
          simp only [unify, sx 1 (by omega), sy 1 (by omega)]
          exact ⟨_, rfl⟩
        | const d =>
          refine base 1 ?_
          simp only [unify, sx 1 (by omega), sy 1 (by omega)]
          split <;> exact ⟨_, rfl⟩
        | app g us =>
          refine base 1 ?_
          simp only [unify, sx 1 (by omega), sy 1 (by omega)]
          exact ⟨_, rfl⟩
      | app f ts =>
        cases y' with
        | var w =>
          obtain ⟨n3, r, e⟩ := occ w ts
          refine base (n3 + 1) ?_
          simp only [unify, sx (n3 + 1) (by omega), sy (n3 + 1) (by omega),
            occursIn_mono e (by omega : n3 ≤ n3 + 1)]
          cases r <;> exact ⟨_, rfl⟩
        | const d =>
          refine base 1 ?_
          simp only [unify, sx 1 (by omega), sy 1 (by omega)]
          exact ⟨_, rfl⟩
        | app g us =>
          simp only [vars_app] at hx' hy'
          simp only [subst_app, size_app] at hm
          -- lists in states with fewer free variables
          have lt_list : ∀ (ts us : List Term) (st' : St), freeCount N st' < k → Rng N st' →
              Acyclic st'.b → (∀ w ∈ varsL ts, w < N) → (∀ w ∈ varsL us, w < N) →
              ∃ n r, unifyL (unify n) st' ts us = some r := by
            intro ts
            induction ts with
            | nil => intro us st' _ _ _ _ _; cases us <;> exact ⟨0, (true, st'), by simp only [unifyL]⟩
            | cons t ts ih =>
              intro us st' h1 h2 h3 h4 h5
              cases us with
              | nil => exact ⟨0, (true, st'), by simp only [unifyL]⟩
              | cons u us =>
                simp only [varsL_cons, List.mem_append] at h4 h5
                have a1 : ∀ w ∈ vars t, w < N := fun w hw => h4 w (.inl hw)
                have a2 : ∀ w ∈ vars u, w < N := fun w hw => h5 w (.inl hw)
                obtain ⟨n, ⟨q, st1⟩, e⟩ := ihk st' h1 h2 h3 t u a1 a2
                cases q with
                | false => exact ⟨n, (false, st1), by simp only [unifyL, e]⟩
                | true =>
                  have sp := unify_spec _ _ _ _ _ _ e
                  have r1 := h2.unify a1 a2 e
                  have hlt : freeCount N st1 < k := by
                    rcases Ext_cases sp.1 r1 with hh | hh
                    · rw [hh]; exact h1
                    · omega
                  obtain ⟨n', r', e'⟩ := ih us st1 hlt r1 (sp.2.1 h3) (fun w hw => h4 w (.inr hw))
                    (fun w hw => h5 w (.inr hw))
                  refine ⟨max n n', r', ?_⟩
                  simp only [unifyL, unify_mono e (by omega : n ≤ max n n')]
                  exact unifyL_mono (fun st x y r hr => unify_mono hr (by omega)) e'
          have list : ∀ (ts us : List Term), (∀ w ∈ varsL ts, w < N) → (∀ w ∈ varsL us, w < N) →
              sizeL (ts.map (subst θ)) + sizeL (us.map (subst θ)) < m →
              ∃ n r, unifyL (unify n) st ts us = some r := by
            intro ts
            induction ts with
            | nil => intro us _ _ _; cases us <;> exact ⟨0, (true, st), by simp only [unifyL]⟩
            | cons t ts ih =>
              intro us h4 h5 h6
              cases us with
              | nil => exact ⟨0, (true, st), by simp only [unifyL]⟩
              | cons u us =>
                simp only [varsL_cons, List.mem_append] at h4 h5
                simp only [List.map_cons, sizeL_cons] at h6
                have a1 : ∀ w ∈ vars t, w < N := fun w hw => h4 w (.inl hw)
                have a2 : ∀ w ∈ vars u, w < N := fun w hw => h5 w (.inl hw)
                obtain ⟨n, ⟨q, st1⟩, e⟩ := ihm t u (by omega) a1 a2
                cases q with
                | false => exact ⟨n, (false, st1), by simp only [unifyL, e]⟩
                | true =>
                  have sp := unify_spec _ _ _ _ _ _ e
                  have r1 := hr.unify a1 a2 e
                  have : ∃ n r, unifyL (unify n) st1 ts us = some r := by
                    rcases Ext_cases sp.1 r1 with hh | hh
                    · rw [hh]
                      exact ih us (fun w hw => h4 w (.inr hw)) (fun w hw => h5 w (.inr hw)) (by omega)
                    · exact lt_list ts us st1 (by omega) r1 (sp.2.1 hc)
                        (fun w hw => h4 w (.inr hw)) (fun w hw => h5 w (.inr hw))
                  obtain ⟨n', r', e'⟩ := this
                  refine ⟨max n n', r', ?_⟩
                  simp only [unifyL, unify_mono e (by omega : n ≤ max n n')]
                  exact unifyL_mono (fun st x y r hr => unify_mono hr (by omega)) e'
          obtain ⟨n, r, e⟩ := list ts us hx' hy' (by omega)
          refine base (n + 1) ?_
          simp only [unify, sx (n + 1) (by omega), sy (n + 1) (by omega)]
          split
          · exact ⟨_, rfl⟩
          · split
            · exact ⟨_, rfl⟩
            · exact ⟨r, unifyL_mono (fun st x y r hr => unify_mono (m := n + 1) hr (by omega)) e⟩

end Gkc
