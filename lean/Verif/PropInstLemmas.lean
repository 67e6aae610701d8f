import Verif.PropInst
import Verif.PropSpec
/-
Lemmas for C46.
-/
namespace Gkc.PropInst
open Term

theorem ClTrue.inst {I : Interp} {g : Const} {cl : List Lit} (h : ClTrue I cl) : InstTrue I (g, cl) :=
  h (fun _ => I.cst g)

/-! ### Equality under two constants -/

mutual
theorem eqG_iff (xg yg : Const) : ∀ x y : Term, eqG xg yg x y = true ↔ ground xg x = ground yg y
  | .var _, .var _ => by simp [eqG, ground]
  | .var _, .const d => by simp [eqG, ground]
  | .const c, .var _ => by simp [eqG, ground]
  | .const c, .const d => by simp [eqG, ground]
  | .app f as, .app k bs => by
    have h := eqGL_iff xg yg as bs
    simp only [eqG, ground, subst_app, Term.app.injEq]
    by_cases hl : as.length = bs.length
    · by_cases hf : f = k
      · simp [hl, hf, h hl]
      · simp [hl, hf]
    · have : as.map (Term.subst fun _ => .const xg) ≠ bs.map (Term.subst fun _ => .const yg) := by
        intro e; exact hl (by simpa using congrArg List.length e)
      simp [hl, this]
  | .var _, .app _ _ => by simp [eqG, ground]
  | .const _, .app _ _ => by simp [eqG, ground]
  | .app _ _, .var _ => by simp [eqG, ground]
  | .app _ _, .const _ => by simp [eqG, ground]
theorem eqGL_iff (xg yg : Const) : ∀ as bs : List Term, as.length = bs.length →
    (eqGL xg yg as bs = true ↔ as.map (Term.subst fun _ => .const xg) = bs.map (Term.subst fun _ => .const yg))
  | [], [], _ => by simp [eqGL]
  | [], _ :: _, h => by simp at h
  | _ :: _, [], h => by simp at h
  | a :: as, b :: bs, h => by
    have h1 := eqG_iff xg yg a b
    have h2 := eqGL_iff xg yg as bs (by simpa using h)
    simp only [ground] at h1
    simp only [eqGL, List.map_cons, List.cons.injEq, ← h1, ← h2]
    cases eqG xg yg a b <;> simp
end

mutual
theorem eval_ground (I : Interp) (ρ : Nat → I.D) (g : Const) : ∀ x : Term,
    eval I ρ (ground g x) = eval I (fun _ => I.cst g) x
  | .var _ => by simp [ground, eval]
  | .const _ => by simp [ground, eval]
  | .app f as => by
    have := evalL_ground I ρ g as
    simp [ground, eval, this]
theorem evalL_ground (I : Interp) (ρ : Nat → I.D) (g : Const) : ∀ as : List Term,
    evalL I ρ (as.map (Term.subst fun _ => .const g)) = evalL I (fun _ => I.cst g) as
  | [] => by simp [evalL]
  | a :: as => by
    have h1 := eval_ground I ρ g a
    have h2 := evalL_ground I ρ g as
    simp only [ground] at h1
    simp [evalL, h1, h2]
end

/-! ### Invariants -/

/-- truth of an entry's instance -/
def Entry.tr (I : Interp) (e : Entry) : Prop := I.tr (eval I (fun _ => I.cst e.gc) e.atom)

/-- what holds of the table and the clauses in any state -/
structure Inv (h : Const → BitVec 64) (s : PSt) : Prop where
  two : 2 ≤ s.counter
  cap : s.counter ≤ s.cap + 1
  ent : ∀ b, ∀ e ∈ s.bk b, 2 ≤ e.pv ∧ e.pv < s.counter
  at_ : ∀ b, ∀ e ∈ s.bk b, atomSlot h e.gc e.atom = b
  inj : ∀ b b', ∀ e ∈ s.bk b, ∀ e' ∈ s.bk b', e.pv = e'.pv → ground e.gc e.atom = ground e'.gc e'.atom
  bkt : ∀ b, ∀ e ∈ s.bk b, ∀ e' ∈ s.bk b, ground e.gc e.atom = ground e'.gc e'.atom → e.pv = e'.pv
  new : ∀ p, s.counter ≤ p → s.vals p = 0
  val : ∀ p, s.vals p = 0 ∨ s.vals p = 1 ∨ s.vals p = -1
  pos : ∀ p, s.vals p = 1 → [(p : Int)] ∈ s.cls
  neg : ∀ p, s.vals p = -1 → [-(p : Int)] ∈ s.cls
  lits : ∀ c ∈ s.cls, ∀ x ∈ c, 2 ≤ x.natAbs ∧ x.natAbs < s.counter
  fresh : ∀ c ∈ s.cls, c ≠ [] ∧ c.Pairwise (fun x y => x ≠ y ∧ x ≠ -y)
  has : ∀ c ∈ s.cls, ∀ x ∈ c, ∃ b, ∃ e ∈ s.bk b, e.pv = x.natAbs

theorem Inv.init (h : Const → BitVec 64) : Inv h PSt.init := by
  constructor <;> simp [PSt.init]

/-- more entries and the same clauses -/
structure Ext (s t : PSt) : Prop where
  bk : ∀ b, s.bk b ⊆ t.bk b
  cls : t.cls = s.cls
  counter : s.counter ≤ t.counter
  cap : t.cap = s.cap
  vals : ∀ p, t.vals p = s.vals p ∨ t.vals p = 0

theorem Ext.refl (s : PSt) : Ext s s := ⟨fun _ _ h => h, rfl, Nat.le_refl _, rfl, fun _ => .inl rfl⟩

theorem Ext.trans {s t u : PSt} (h : Ext s t) (k : Ext t u) : Ext s u :=
  ⟨fun b => List.Subset.trans (h.bk b) (k.bk b), k.cls.trans h.cls, Nat.le_trans h.counter k.counter,
    k.cap.trans h.cap, fun p => by
      rcases k.vals p with e | e
      · rw [e]; exact h.vals p
      · exact .inr e⟩

theorem findPv_some {g : Const} {x : Term} : ∀ {es : List Entry} {p : Nat}, findPv g x es = some p →
    ∃ e ∈ es, e.pv = p ∧ ground e.gc e.atom = ground g x
  | [], p, h => by simp [findPv] at h
  | e :: es, p, h => by
    rw [findPv] at h
    split at h
    · rename_i hq
      refine ⟨e, List.mem_cons_self, by simpa using h, ((eqG_iff _ _ _ _).1 hq).symm⟩
    · obtain ⟨e', he, h'⟩ := findPv_some h
      exact ⟨e', List.mem_cons_of_mem _ he, h'⟩

theorem findPv_none {g : Const} {x : Term} : ∀ {es : List Entry}, findPv g x es = none →
    ∀ e ∈ es, ground e.gc e.atom ≠ ground g x
  | [], _, e, he => by cases he
  | e :: es, h, e', he => by
    rw [findPv] at h
    split at h
    · cases h
    · rename_i hq
      rcases List.mem_cons.1 he with rfl | he
      · intro k; exact hq ((eqG_iff _ _ _ _).2 k.symm)
      · exact findPv_none h e' he

/-- wr_make_get_propvar: the number belongs to an entry for the instance -/
theorem getPv_spec {h : Const → BitVec 64} {g : Const} {s s' : PSt} {x : Term} {p : Nat} (hi : Inv h s)
    (hg : getPv h g s x = some (p, s')) :
    Inv h s' ∧ Ext s s' ∧ s'.vals = s.vals ∧
      ∃ e ∈ s'.bk (atomSlot h g x), e.pv = p ∧ ground e.gc e.atom = ground g x := by
  rw [getPv] at hg
  split at hg
  · rename_i q hq
    simp only [Option.some.injEq, Prod.mk.injEq] at hg
    obtain ⟨rfl, rfl⟩ := hg
    exact ⟨hi, Ext.refl _, rfl, findPv_some hq⟩
  · rename_i hq
    have hq' := findPv_none hq
    split at hg
    · rename_i hc
      simp only [Option.some.injEq, Prod.mk.injEq] at hg
      obtain ⟨rfl, rfl⟩ := hg
      have hv : (fun p => if p = s.counter then 0 else s.vals p) = s.vals := by
        funext p
        split
        · rename_i e; subst e; exact (hi.new _ (Nat.le_refl _)).symm
        · rfl
      have mem : ∀ b e, e ∈ (if b = atomSlot h g x then s.bk b ++ [⟨x, g, s.counter⟩] else s.bk b) →
          e ∈ s.bk b ∨ (b = atomSlot h g x ∧ e = ⟨x, g, s.counter⟩) := by
        intro b e he
        split at he
        · rename_i hb
          rcases List.mem_append.1 he with k | k
          · exact .inl k
          · exact .inr ⟨hb, by simpa using k⟩
        · exact .inl he
      refine ⟨?_, ⟨?_, rfl, Nat.le_succ _, rfl, ?_⟩, hv, ⟨x, g, s.counter⟩, ?_, rfl, rfl⟩
      · refine ⟨Nat.le_succ_of_le hi.two, Nat.succ_le_succ hc, ?_, ?_, ?_, ?_, ?_, ?_, ?_, ?_, ?_, hi.fresh, ?_⟩
        · intro b e he
          rcases mem b e he with k | ⟨_, rfl⟩
          · have := hi.ent b e k; exact ⟨this.1, Nat.lt_succ_of_lt this.2⟩
          · exact ⟨hi.two, Nat.lt_succ_self _⟩
        · intro b e he
          rcases mem b e he with k | ⟨hb, rfl⟩
          · exact hi.at_ b e k
          · exact hb.symm
        · intro b b' e he e' he' hp
          rcases mem b e he with k | ⟨_, rfl⟩ <;> rcases mem b' e' he' with k' | ⟨_, rfl⟩
          · exact hi.inj b b' e k e' k' hp
          · have := (hi.ent b e k).2; simp only at hp; omega
          · have := (hi.ent b' e' k').2; simp only at hp; omega
          · rfl
        · intro b e he e' he' hp
          rcases mem b e he with k | ⟨hb, rfl⟩ <;> rcases mem b e' he' with k' | ⟨hb', rfl⟩
          · exact hi.bkt b e k e' k' hp
          · subst hb'; exact absurd hp (hq' e k)
          · subst hb; exact absurd hp.symm (hq' e' k')
          · rfl
        · intro p hp
          show (if p = s.counter then 0 else s.vals p) = 0
          split
          · rfl
          · exact hi.new p (by have : s.counter + 1 ≤ p := hp; omega)
        · show ∀ p, (fun p => if p = s.counter then 0 else s.vals p) p = 0 ∨ _
          rw [hv]; exact hi.val
        · show ∀ p, (fun p => if p = s.counter then 0 else s.vals p) p = 1 → _
          rw [hv]; exact hi.pos
        · show ∀ p, (fun p => if p = s.counter then 0 else s.vals p) p = -1 → _
          rw [hv]; exact hi.neg
        · intro c hc x hx
          have := hi.lits c hc x hx
          exact ⟨this.1, Nat.lt_succ_of_lt this.2⟩
        · intro c hc y hy
          obtain ⟨b, e, he, hp⟩ := hi.has c hc y hy
          refine ⟨b, e, ?_, hp⟩
          show e ∈ (if b = atomSlot h g x then s.bk b ++ [⟨x, g, s.counter⟩] else s.bk b)
          split
          · exact List.mem_append_left _ he
          · exact he
      · intro b e he
        show e ∈ (if b = atomSlot h g x then s.bk b ++ [⟨x, g, s.counter⟩] else s.bk b)
        split
        · exact List.mem_append_left _ he
        · exact he
      · intro p
        left
        exact congrFun hv p
      · simp
    · cases hg

theorem scan_true {pv : Int} : ∀ {st : List Int}, scan pv st = some true → pv ∈ st
  | [], h => by simp [scan] at h
  | x :: xs, h => by
    rw [scan] at h
    split at h
    · rename_i e; subst e; exact List.mem_cons_self
    · split at h
      · simp at h
      · exact List.mem_cons_of_mem _ (scan_true h)

theorem scan_false {pv : Int} : ∀ {st : List Int}, scan pv st = some false → -pv ∈ st
  | [], h => by simp [scan] at h
  | x :: xs, h => by
    rw [scan] at h
    split at h
    · simp at h
    · split at h
      · rename_i e; have : x = -pv := by omega
        subst this; exact List.mem_cons_self
      · exact List.mem_cons_of_mem _ (scan_false h)

theorem scan_none {pv : Int} : ∀ {st : List Int}, scan pv st = none → ∀ x ∈ st, x ≠ pv ∧ x ≠ -pv
  | [], _, x, hx => by cases hx
  | y :: ys, h, x, hx => by
    rw [scan] at h
    split at h
    · simp at h
    · split at h
      · simp at h
      · rcases List.mem_cons.1 hx with rfl | hx
        · exact ⟨by assumption, by omega⟩
        · exact scan_none h x hx

/-- the number of literal `l` with the constant `g` in state `s` -/
def Num (h : Const → BitVec 64) (g : Const) (s : PSt) (l : Lit) (x : Int) : Prop :=
  ∃ e ∈ s.bk (atomSlot h g l.atom), ground e.gc e.atom = ground g l.atom ∧
    x = if l.neg then -(e.pv : Int) else e.pv

theorem Num.ext {h : Const → BitVec 64} {g : Const} {s t : PSt} {l : Lit} {x : Int} (k : Num h g s l x) (he : Ext s t) :
    Num h g t l x := by
  obtain ⟨e, hm, hk⟩ := k
  exact ⟨e, he.bk _ hm, hk⟩

/-- what the loop over the literals gives -/
theorem litLoop_spec {h : Const → BitVec 64} {g : Const} : ∀ {ls : List Lit} {st : List Int} {s : PSt}, Inv h s →
    (∀ x ∈ st, 2 ≤ x.natAbs ∧ x.natAbs < s.counter) → st.Pairwise (fun x y => x ≠ y ∧ x ≠ -y) →
    match litLoop h g ls st s with
    | .ub => True
    | .drop t => Inv h t ∧ Ext s t ∧ ∃ l ∈ ls, ∃ x, Num h g t l x ∧ ([x] ∈ t.cls ∨ ((-x ∈ st) ∨ ∃ k ∈ ls, Num h g t k (-x)))
    | .done r t => Inv h t ∧ Ext s t ∧ st ⊆ r ∧ (∀ x ∈ r, 2 ≤ x.natAbs ∧ x.natAbs < t.counter) ∧
        r.Pairwise (fun x y => x ≠ y ∧ x ≠ -y) ∧ (∀ x ∈ r, x ∈ st ∨ ∃ l ∈ ls, Num h g t l x) ∧
        ∀ l ∈ ls, ∃ x, Num h g t l x ∧ (x ∈ r ∨ [-x] ∈ t.cls)
  | [], st, s, hi, h1, h2 => by
    simp only [litLoop]
    exact ⟨hi, Ext.refl _, fun _ h => h, h1, h2, fun x hx => .inl hx, fun l hl => by cases hl⟩
  | l :: ls, st, s, hi, h1, h2 => by
    rw [litLoop]
    cases hg : getPv h g s l.atom with
    | none => trivial
    | some r =>
      obtain ⟨p, t⟩ := r
      obtain ⟨hi', hx, hv, e, he, hp, hgr⟩ := getPv_spec hi hg
      subst hp
      have hpc := hi'.ent _ e he
      have h1' : ∀ x ∈ st, 2 ≤ x.natAbs ∧ x.natAbs < t.counter := fun x hx' =>
        ⟨(h1 x hx').1, Nat.lt_of_lt_of_le (h1 x hx').2 hx.counter⟩
      have hnum : Num h g t l (if l.neg then -(e.pv : Int) else e.pv) := ⟨e, he, hgr, rfl⟩
      -- the value and the sign
      simp only []
      by_cases hval : t.vals e.pv = 0
      · rw [if_neg (by simp [hval])]
        have hpv : (if l.neg = true then 0 - (e.pv : Int) else (e.pv : Int)) = if l.neg then -(e.pv : Int) else e.pv := by
          split <;> omega
        rw [hpv]
        generalize hq : (if l.neg then -(e.pv : Int) else (e.pv : Int)) = q at *
        have hqa : q.natAbs = e.pv := by rw [← hq]; split <;> omega
        cases hs : scan q st with
        | none =>
          have hn := scan_none hs
          have ih := litLoop_spec (h := h) (g := g) (ls := ls) (st := st ++ [q]) (s := t) hi'
            (by
              intro x hx'
              rcases List.mem_append.1 hx' with k | k
              · exact h1' x k
              · have : x = q := by simpa using k
                subst this; rw [hqa]; exact hpc)
            (by
              rw [List.pairwise_append]
              refine ⟨h2, by simp, ?_⟩
              intro x hx' y hy
              have : y = q := by simpa using hy
              subst this
              exact hn x hx')
          revert ih
          show (match litLoop h g ls (st ++ [q]) t with | .ub => _ | .drop t => _ | .done r t => _) → _
          cases litLoop h g ls (st ++ [q]) t with
          | ub => intro _; trivial
          | drop u =>
            rintro ⟨a1, a2, l', hl', x, hx1, hx2⟩
            refine ⟨a1, hx.trans a2, l', List.mem_cons_of_mem _ hl', x, hx1, ?_⟩
            rcases hx2 with k | k | ⟨k, hk, hk'⟩
            · exact .inl k
            · rcases List.mem_append.1 k with k | k
              · exact .inr (.inl k)
              · have : -x = q := by simpa using k
                exact .inr (.inr ⟨l, List.mem_cons_self, by rw [this]; exact hnum.ext a2⟩)
            · exact .inr (.inr ⟨k, List.mem_cons_of_mem _ hk, hk'⟩)
          | done r u =>
            rintro ⟨a1, a2, a3, a4, a5, a6, a7⟩
            refine ⟨a1, hx.trans a2, fun y hy => a3 (List.mem_append_left _ hy), a4, a5, ?_, ?_⟩
            · intro x hx'
              rcases a6 x hx' with k | ⟨k, hk, hk'⟩
              · rcases List.mem_append.1 k with k | k
                · exact .inl k
                · have : x = q := by simpa using k
                  exact .inr ⟨l, List.mem_cons_self, by rw [this]; exact hnum.ext a2⟩
              · exact .inr ⟨k, List.mem_cons_of_mem _ hk, hk'⟩
            · intro k hk
              rcases List.mem_cons.1 hk with rfl | hk
              · exact ⟨q, hnum.ext a2, .inl (a3 (List.mem_append_right _ (by simp)))⟩
              · exact a7 k hk
        | some b =>
          cases b with
          | true =>
            have hin := scan_true hs
            have ih := litLoop_spec (h := h) (g := g) (ls := ls) (st := st) (s := t) hi' h1' h2
            revert ih
            show (match litLoop h g ls st t with | .ub => _ | .drop t => _ | .done r t => _) → _
            cases litLoop h g ls st t with
            | ub => intro _; trivial
            | drop u =>
              rintro ⟨a1, a2, l', hl', x, hx1, hx2⟩
              refine ⟨a1, hx.trans a2, l', List.mem_cons_of_mem _ hl', x, hx1, ?_⟩
              rcases hx2 with k | k | ⟨k, hk, hk'⟩
              · exact .inl k
              · exact .inr (.inl k)
              · exact .inr (.inr ⟨k, List.mem_cons_of_mem _ hk, hk'⟩)
            | done r u =>
              rintro ⟨a1, a2, a3, a4, a5, a6, a7⟩
              refine ⟨a1, hx.trans a2, a3, a4, a5, ?_, ?_⟩
              · intro x hx'
                rcases a6 x hx' with k | ⟨k, hk, hk'⟩
                · exact .inl k
                · exact .inr ⟨k, List.mem_cons_of_mem _ hk, hk'⟩
              · intro k hk
                rcases List.mem_cons.1 hk with rfl | hk
                · exact ⟨q, hnum.ext a2, .inl (a3 hin)⟩
                · exact a7 k hk
          | false =>
            exact ⟨hi', hx, l, List.mem_cons_self, q, hnum, .inr (.inl (scan_false hs))⟩
      · rw [if_pos hval]
        by_cases hsg : t.vals e.pv = if l.neg = true then -1 else 1
        · rw [if_pos hsg]
          refine ⟨hi', hx, l, List.mem_cons_self, _, hnum, .inl ?_⟩
          cases hl : l.neg with
          | true => rw [hl] at hsg; simpa using hi'.neg _ (by simpa using hsg)
          | false => rw [hl] at hsg; simpa using hi'.pos _ (by simpa using hsg)
        · rw [if_neg hsg]
          have hcut : [-(if l.neg then -(e.pv : Int) else (e.pv : Int))] ∈ t.cls := by
            have := hi'.val e.pv
            cases hl : l.neg with
            | true =>
              rw [hl] at hsg; simp only [if_true] at hsg ⊢
              rw [Int.neg_neg]
              exact hi'.pos _ (by omega)
            | false =>
              rw [hl] at hsg
              simp only [Bool.false_eq_true, if_false] at hsg ⊢
              exact hi'.neg _ (by omega)
          have ih := litLoop_spec (h := h) (g := g) (ls := ls) (st := st) (s := t) hi' h1' h2
          revert ih
          cases litLoop h g ls st t with
          | ub => intro _; trivial
          | drop u =>
            rintro ⟨a1, a2, l', hl', x, hx1, hx2⟩
            refine ⟨a1, hx.trans a2, l', List.mem_cons_of_mem _ hl', x, hx1, ?_⟩
            rcases hx2 with k | k | ⟨k, hk, hk'⟩
            · exact .inl k
            · exact .inr (.inl k)
            · exact .inr (.inr ⟨k, List.mem_cons_of_mem _ hk, hk'⟩)
          | done r u =>
            rintro ⟨a1, a2, a3, a4, a5, a6, a7⟩
            refine ⟨a1, hx.trans a2, a3, a4, a5, ?_, ?_⟩
            · intro x hx'
              rcases a6 x hx' with k | ⟨k, hk, hk'⟩
              · exact .inl k
              · exact .inr ⟨k, List.mem_cons_of_mem _ hk, hk'⟩
            · intro k hk
              rcases List.mem_cons.1 hk with rfl | hk
              · exact ⟨_, hnum.ext a2, .inr (by rw [a2.cls]; exact hcut)⟩
              · exact a7 k hk

/-- more entries and more clauses -/
structure Ext2 (s t : PSt) : Prop where
  bk : ∀ b, s.bk b ⊆ t.bk b
  cls : s.cls ⊆ t.cls
  counter : s.counter ≤ t.counter

theorem Ext.to2 {s t : PSt} (h : Ext s t) : Ext2 s t := ⟨h.bk, by rw [h.cls]; exact fun _ h => h, h.counter⟩

theorem Ext2.trans {s t u : PSt} (h : Ext2 s t) (k : Ext2 t u) : Ext2 s u :=
  ⟨fun b => List.Subset.trans (h.bk b) (k.bk b), List.Subset.trans h.cls k.cls, Nat.le_trans h.counter k.counter⟩

theorem Num.ext2 {h : Const → BitVec 64} {g : Const} {s t : PSt} {l : Lit} {x : Int} (k : Num h g s l x) (he : Ext2 s t) :
    Num h g t l x := by
  obtain ⟨e, hm, hk⟩ := k
  exact ⟨e, he.bk _ hm, hk⟩

/-- the number of a literal in DIMACS form is true -/
def LSat (v : Nat → Prop) (x : Int) : Prop := (0 < x ∧ v x.toNat) ∨ (x < 0 ∧ ¬ v (-x).toNat)

theorem LSat.not {v : Nat → Prop} {x : Int} (h : LSat v x) : ¬ LSat v (-x) := by
  rintro (k | k) <;> rcases h with h | h
  · omega
  · exact h.2 k.2
  · rw [Int.neg_neg] at k; exact k.2 h.2
  · omega

theorem LSat.em {v : Nat → Prop} {x : Int} (hx : x ≠ 0) : LSat v x ∨ LSat v (-x) := by
  unfold LSat
  rw [Int.neg_neg]
  by_cases h : 0 < x
  · by_cases hv : v x.toNat
    · exact .inl (.inl ⟨h, hv⟩)
    · exact .inr (.inr ⟨by omega, hv⟩)
  · by_cases hv : v (-x).toNat
    · exact .inr (.inl ⟨by omega, hv⟩)
    · exact .inl (.inr ⟨by omega, hv⟩)

/-- the clauses imply the clause `c` on the numbers of its literals -/
def Covers (h : Const → BitVec 64) (s : PSt) (c : Const × List Lit) : Prop :=
  ∀ v : Nat → Prop, (∀ k ∈ s.cls, PSat v k) → ∃ l ∈ c.2, ∃ x, Num h c.1 s l x ∧ LSat v x

theorem Covers.ext {h : Const → BitVec 64} {s t : PSt} {c : Const × List Lit} (k : Covers h s c) (he : Ext2 s t) :
    Covers h t c := by
  intro v hv
  obtain ⟨l, hl, x, hx, hs⟩ := k v (fun k hk => hv k (he.cls hk))
  exact ⟨l, hl, x, hx.ext2 he, hs⟩

/-- the clauses are no stronger than what was there and the clause `c` -/
def Below (h : Const → BitVec 64) (s t : PSt) (c : Const × List Lit) : Prop :=
  ∀ k ∈ t.cls, k ∈ s.cls ∨ ∀ l ∈ c.2, ∃ x, Num h c.1 t l x ∧ (x ∈ k ∨ [-x] ∈ s.cls)

/-- adding a clause -/
theorem Inv.push {h : Const → BitVec 64} {s : PSt} {r : List Int} {vals : Nat → Int} (hi : Inv h s) (hne : r ≠ [])
    (h1 : ∀ x ∈ r, 2 ≤ x.natAbs ∧ x.natAbs < s.counter) (h2 : r.Pairwise (fun x y => x ≠ y ∧ x ≠ -y))
    (h3 : ∀ x ∈ r, ∃ b, ∃ e ∈ s.bk b, e.pv = x.natAbs)
    (hv : ∀ p, vals p = s.vals p ∨ (p < s.counter ∧ ((vals p = 1 ∧ r = [(p : Int)]) ∨ (vals p = -1 ∧ r = [-(p : Int)])))) :
    Inv h { s with cls := s.cls ++ [r], vals := vals } := by
  refine ⟨hi.two, hi.cap, hi.ent, hi.at_, hi.inj, hi.bkt, ?_, ?_, ?_, ?_, ?_, ?_, ?_⟩
  · intro p hp
    have hp : s.counter ≤ p := hp
    rcases hv p with k | k
    · exact k.trans (hi.new p hp)
    · omega
  · intro p
    show vals p = 0 ∨ vals p = 1 ∨ vals p = -1
    rcases hv p with k | ⟨_, k | k⟩
    · rw [k]; exact hi.val p
    · exact .inr (.inl k.1)
    · exact .inr (.inr k.1)
  · intro p hp
    have hp : vals p = 1 := hp
    rcases hv p with k | ⟨_, k | k⟩
    · exact List.mem_append_left _ (hi.pos p (by omega))
    · exact List.mem_append_right _ (by simp [k.2])
    · omega
  · intro p hp
    have hp : vals p = -1 := hp
    rcases hv p with k | ⟨_, k | k⟩
    · exact List.mem_append_left _ (hi.neg p (by omega))
    · omega
    · exact List.mem_append_right _ (by simp [k.2])
  · intro c hc
    rcases List.mem_append.1 hc with k | k
    · exact hi.lits c k
    · rw [List.mem_singleton.1 k]; exact h1
  · intro c hc
    rcases List.mem_append.1 hc with k | k
    · exact hi.fresh c k
    · rw [List.mem_singleton.1 k]; exact ⟨hne, h2⟩
  · intro c hc
    rcases List.mem_append.1 hc with k | k
    · exact hi.has c k
    · rw [List.mem_singleton.1 k]; exact h3

theorem covers_of_push {h : Const → BitVec 64} {s t : PSt} {c : Const × List Lit} {r : List Int}
    (hr : r ∈ t.cls) (h3 : ∀ x ∈ r, ∃ l ∈ c.2, Num h c.1 s l x) (he : Ext2 s t) : Covers h t c := by
  intro v hv
  obtain ⟨x, hx, hs⟩ := hv r hr
  obtain ⟨l, hl, hn⟩ := h3 x hx
  exact ⟨l, hl, x, hn.ext2 he, hs⟩

/-- wr_cl_create_propinst -/
theorem create_spec {h : Const → BitVec 64} {g : Const} {cl : List Lit} {s : PSt} (hi : Inv h s) :
    match create h g cl s with
    | .ub => True
    | .contra => ∃ t, Inv h t ∧ Ext s t ∧ ∀ l ∈ cl, ∃ x, Num h g t l x ∧ [-x] ∈ s.cls
    | .ok t => Inv h t ∧ Ext2 s t ∧ Covers h t (g, cl) ∧ Below h s t (g, cl) := by
  have hl := litLoop_spec (h := h) (g := g) (ls := cl) (st := []) (s := s) hi (by simp) List.Pairwise.nil
  rw [create]
  revert hl
  cases litLoop h g cl [] s with
  | ub => intro _; trivial
  | drop t =>
    rintro ⟨a1, a2, l, hl, x, hx, hc⟩
    refine ⟨a1, a2.to2, ?_, fun k hk => .inl (a2.cls ▸ hk)⟩
    intro v hv
    rcases hc with hc | hc | ⟨k, hk, hk'⟩
    · obtain ⟨y, hy, hs⟩ := hv _ hc
      have : y = x := by simpa using hy
      subst this
      exact ⟨l, hl, y, hx, hs⟩
    · simp at hc
    · have hx0 : x ≠ 0 := by
        obtain ⟨e, he, _, hxe⟩ := hx
        have := (a1.ent _ e he).1
        rw [hxe]; split <;> omega
      rcases LSat.em (v := v) hx0 with q | q
      · exact ⟨l, hl, x, hx, q⟩
      · exact ⟨k, hk, -x, hk', q⟩
  | done r t =>
    rintro ⟨a1, a2, _, a4, a5, a6, a7⟩
    have a6' : ∀ x ∈ r, ∃ l ∈ cl, Num h g t l x := by
      intro x hx
      rcases a6 x hx with k | k
      · cases k
      · exact k
    have a8 : ∀ x ∈ r, ∃ b, ∃ e ∈ t.bk b, e.pv = x.natAbs := by
      intro x hx
      obtain ⟨l, _, e, he, _, hxe⟩ := a6' x hx
      refine ⟨_, e, he, ?_⟩
      rw [hxe]; split <;> omega
    have bel : ∀ u : PSt, u.bk = t.bk → u.cls = t.cls ++ [r] → Below h s u (g, cl) := by
      intro u hb hc k hk
      rw [hc] at hk
      rcases List.mem_append.1 hk with hk | hk
      · exact .inl (a2.cls ▸ hk)
      · right
        intro l hl
        obtain ⟨x, hx, hr⟩ := a7 l hl
        refine ⟨x, ?_, ?_⟩
        · obtain ⟨e, he, he'⟩ := hx
          exact ⟨e, by rw [hb]; exact he, he'⟩
        · rw [List.mem_singleton.1 hk, ← a2.cls]; exact hr
    have ext : ∀ u : PSt, u.bk = t.bk → u.cls = t.cls ++ [r] → u.counter = t.counter → Ext2 t u := by
      intro u hb hc hn
      exact ⟨fun b => by rw [hb]; exact fun _ h => h, by rw [hc]; exact fun _ h => List.mem_append_left _ h, by omega⟩
    match r, a4, a5, a6', a7, a8, bel, ext with
    | [], _, _, _, a7, _, _, _ =>
      refine ⟨t, a1, a2, ?_⟩
      intro l hl
      obtain ⟨x, hx, hr⟩ := a7 l hl
      refine ⟨x, hx, ?_⟩
      rcases hr with hr | hr
      · cases hr
      · rw [← a2.cls]; exact hr
    | [x], a4, a5, a6', a7, a8, bel, ext =>
      have hx := a4 x (by simp)
      refine ⟨a1.push (by simp) a4 a5 a8 ?_, a2.to2.trans (ext _ rfl rfl rfl), ?_, bel _ rfl rfl⟩
      · intro p
        by_cases hp : p = x.natAbs
        · right
          refine ⟨hp ▸ hx.2, ?_⟩
          simp only [hp, if_true]
          by_cases hn : x < 0
          · right; simp only [hn, if_true, true_and, List.cons.injEq, and_true]; omega
          · left; simp only [hn, if_false, true_and, List.cons.injEq, and_true]; omega
        · left; simp [hp]
      · exact covers_of_push (s := t) (r := [x]) (List.mem_append_right _ (by simp)) a6' (ext _ rfl rfl rfl)
    | x :: y :: r, a4, a5, a6', a7, a8, bel, ext =>
      refine ⟨a1.push (by simp) a4 a5 a8 (fun p => .inl rfl), a2.to2.trans (ext _ rfl rfl rfl), ?_, bel _ rfl rfl⟩
      exact covers_of_push (s := t) (r := x :: y :: r) (List.mem_append_right _ (by simp)) a6' (ext _ rfl rfl rfl)

/-! ### Soundness -/

/-- the valuation of an interpretation -/
def valOf (I : Interp) (s : PSt) (p : Nat) : Prop := ∃ b, ∃ e ∈ s.bk b, e.pv = p ∧ e.tr I

theorem Entry.tr_congr {I : Interp} {e e' : Entry} (h : ground e.gc e.atom = ground e'.gc e'.atom) :
    e.tr I ↔ e'.tr I := by
  unfold Entry.tr
  rw [← eval_ground I (fun _ => I.cst e.gc) e.gc e.atom, h, eval_ground]

theorem valOf_iff {h : Const → BitVec 64} {I : Interp} {s : PSt} (hi : Inv h s) {b : Nat} {e : Entry} (he : e ∈ s.bk b) :
    valOf I s e.pv ↔ e.tr I := by
  constructor
  · rintro ⟨b', e', he', hp, ht⟩
    exact (Entry.tr_congr (hi.inj b b' e he e' he' hp.symm)).2 ht
  · intro ht; exact ⟨b, e, he, rfl, ht⟩

theorem lsat_iff {h : Const → BitVec 64} {I : Interp} {s : PSt} (hi : Inv h s) {g : Const} {l : Lit} {x : Int}
    (hn : Num h g s l x) : LSat (valOf I s) x ↔
      if l.neg then ¬ I.tr (eval I (fun _ => I.cst g) l.atom) else I.tr (eval I (fun _ => I.cst g) l.atom) := by
  obtain ⟨e, he, hg, hx⟩ := hn
  have h2 := (hi.ent _ e he).1
  have hv := valOf_iff (I := I) hi he
  have ht : e.tr I ↔ I.tr (eval I (fun _ => I.cst g) l.atom) := by
    unfold Entry.tr
    rw [← eval_ground I (fun _ => I.cst g) e.gc e.atom, hg, eval_ground]
  rw [hx]
  unfold LSat
  cases l.neg with
  | true =>
    simp only [if_true, Int.neg_neg, Int.toNat_natCast]
    rw [hv, ht]
    constructor
    · rintro (k | k)
      · omega
      · exact k.2
    · intro k; exact .inr ⟨by omega, k⟩
  | false =>
    simp only [Bool.false_eq_true, if_false, Int.toNat_natCast]
    rw [hv, ht]
    constructor
    · rintro (k | k)
      · exact k.2
      · omega
    · intro k; exact .inl ⟨by omega, k⟩

/-- an old clause keeps its value -/
theorem psat_ext {h : Const → BitVec 64} {I : Interp} {s t : PSt} (hi : Inv h s) (hi' : Inv h t) (he : Ext2 s t)
    {c : List Int} (hc : c ∈ s.cls) (hs : PSat (valOf I s) c) : PSat (valOf I t) c := by
  obtain ⟨x, hx, hl⟩ := hs
  obtain ⟨b, e, hm, hp⟩ := hi.has c hc x hx
  refine ⟨x, hx, ?_⟩
  have e1 : valOf I s x.natAbs ↔ valOf I t x.natAbs := by
    rw [← hp, valOf_iff hi hm, valOf_iff hi' (he.bk b hm)]
  rcases hl with ⟨h0, hl⟩ | ⟨h0, hl⟩
  · left; refine ⟨h0, ?_⟩
    have : x.toNat = x.natAbs := by omega
    rw [this] at hl ⊢; exact e1.1 hl
  · right; refine ⟨h0, ?_⟩
    have : (-x).toNat = x.natAbs := by omega
    rw [this] at hl ⊢; exact fun k => hl (e1.2 k)

/-- one clause keeps the table true -/
theorem create_sound {h : Const → BitVec 64} {I : Interp} {g : Const} {cl : List Lit} {s : PSt} (hi : Inv h s)
    (hm : ∀ c ∈ s.cls, PSat (valOf I s) c) (ht : InstTrue I (g, cl)) :
    match create h g cl s with
    | .ub => True
    | .contra => False
    | .ok t => ∀ c ∈ t.cls, PSat (valOf I t) c := by
  have hs := create_spec (h := h) (g := g) (cl := cl) hi
  revert hs
  obtain ⟨l, hl, htl⟩ := ht
  -- a cut literal is false
  have cut : ∀ t, Inv h t → Ext2 s t → ∀ x, Num h g t l x → [-x] ∈ s.cls → False := by
    intro t hi' he x hx hc
    have h1 := (lsat_iff (I := I) hi' hx).2 htl
    obtain ⟨y, hy, h2⟩ := psat_ext hi hi' he hc (hm _ hc)
    have : y = -x := by simpa using hy
    subst this
    exact LSat.not h1 h2
  cases create h g cl s with
  | ub => intro _; trivial
  | contra =>
    rintro ⟨t, hi', he, hk⟩
    obtain ⟨x, hx, hc⟩ := hk l hl
    exact cut t hi' he.to2 x hx hc
  | ok t =>
    rintro ⟨hi', he, _, hb⟩ c hc
    rcases hb c hc with k | k
    · exact psat_ext hi hi' he k (hm _ k)
    · obtain ⟨x, hx, hr⟩ := k l hl
      rcases hr with hr | hr
      · exact ⟨x, hr, (lsat_iff hi' hx).2 htl⟩
      · exact (cut t hi' he x hx hr).elim

theorem feed_sound {h : Const → BitVec 64} {I : Interp} : ∀ {cs : List (Const × List Lit)} {s : PSt}, Inv h s →
    (∀ c ∈ s.cls, PSat (valOf I s) c) → (∀ c ∈ cs, InstTrue I c) →
    match feed h cs s with
    | .ub => True
    | .contra => False
    | .ok t => ∀ c ∈ t.cls, PSat (valOf I t) c
  | [], s, _, hm, _ => by simpa [feed] using hm
  | (g, cl) :: cs, s, hi, hm, ht => by
    have h1 := create_sound (I := I) hi hm (ht (g, cl) List.mem_cons_self)
    have h2 := create_spec (h := h) (g := g) (cl := cl) hi
    rw [feed]
    simp only []
    revert h1 h2
    cases create h g cl s with
    | ub => intro _ _; trivial
    | contra => intro k; exact k.elim
    | ok t =>
      intro h1 h2
      exact feed_sound h2.1 h1 (fun c hc => ht c (List.mem_cons_of_mem _ hc))

theorem feed_contra_false {h : Const → BitVec 64} {I : Interp} {cs : List (Const × List Lit)}
    (hf : feed h cs PSt.init = .contra) (hI : ∀ c ∈ cs, ClTrue I c.2) : False := by
  have := feed_sound (h := h) (I := I) (cs := cs) (Inv.init h) (by simp [PSt.init]) (fun c hc => hI c hc (fun _ => I.cst c.1))
  rw [hf] at this
  exact this

theorem feed_file_sat {h : Const → BitVec 64} {I : Interp} {cs : List (Const × List Lit)} {s : PSt}
    (hf : feed h cs PSt.init = .ok s) (hI : ∀ c ∈ cs, ClTrue I c.2) : Satisfiable (file s).2.2 := by
  have := feed_sound (h := h) (I := I) (cs := cs) (Inv.init h) (by simp [PSt.init]) (fun c hc => hI c hc (fun _ => I.cst c.1))
  rw [hf] at this
  exact ⟨_, this⟩

/-! ### The other direction -/

theorem feed_spec {h : Const → BitVec 64} : ∀ {cs : List (Const × List Lit)} {s t : PSt}, Inv h s →
    feed h cs s = .ok t → Inv h t ∧ Ext2 s t ∧ ∀ c ∈ cs, Covers h t c
  | [], s, t, hi, hf => by
    simp only [feed, Res.ok.injEq] at hf
    subst hf
    exact ⟨hi, (Ext.refl _).to2, fun c hc => by cases hc⟩
  | (g, cl) :: cs, s, t, hi, hf => by
    have h2 := create_spec (h := h) (g := g) (cl := cl) hi
    rw [feed] at hf
    simp only [] at hf
    revert h2 hf
    cases create h g cl s with
    | ub => intro k _; cases k
    | contra => intro k _; cases k
    | ok u =>
      intro hf h2
      obtain ⟨a, b, c⟩ := feed_spec h2.1 hf
      refine ⟨a, h2.2.1.trans b, ?_⟩
      intro d hd
      rcases List.mem_cons.1 hd with rfl | hd
      · exact h2.2.2.1.ext b
      · exact c d hd

/-- entries come from the clauses -/
def From (cs : List (Const × List Lit)) (s : PSt) : Prop :=
  ∀ b, ∀ e ∈ s.bk b, ∃ c ∈ cs, ∃ l ∈ c.2, e.gc = c.1 ∧ e.atom = l.atom

theorem getPv_from {h : Const → BitVec 64} {g : Const} {s s' : PSt} {l : Lit} {p : Nat} {cs : List (Const × List Lit)}
    {cl : List Lit} (hc : (g, cl) ∈ cs) (hl : l ∈ cl) (hf : From cs s) (hg : getPv h g s l.atom = some (p, s')) :
    From cs s' := by
  rw [getPv] at hg
  split at hg
  · simp only [Option.some.injEq, Prod.mk.injEq] at hg
    rw [← hg.2]; exact hf
  · split at hg
    · simp only [Option.some.injEq, Prod.mk.injEq] at hg
      rw [← hg.2]
      intro b e he
      have he : e ∈ (if b = atomSlot h g l.atom then s.bk b ++ [⟨l.atom, g, s.counter⟩] else s.bk b) := he
      split at he
      · rcases List.mem_append.1 he with k | k
        · exact hf b e k
        · have : e = ⟨l.atom, g, s.counter⟩ := by simpa using k
          subst this
          exact ⟨_, hc, l, hl, rfl, rfl⟩
      · exact hf b e he
    · cases hg

theorem litLoop_from {h : Const → BitVec 64} {g : Const} {cs : List (Const × List Lit)} {cl : List Lit}
    (hc : (g, cl) ∈ cs) : ∀ {ls : List Lit} {st : List Int} {s : PSt}, ls ⊆ cl → From cs s →
    match litLoop h g ls st s with
    | .ub => True
    | .drop t => From cs t
    | .done _ t => From cs t
  | [], st, s, _, hf => by simpa [litLoop] using hf
  | l :: ls, st, s, hsub, hf => by
    rw [litLoop]
    have hsub' : ls ⊆ cl := fun x hx => hsub (List.mem_cons_of_mem _ hx)
    cases hg : getPv h g s l.atom with
    | none => trivial
    | some r =>
      obtain ⟨p, t⟩ := r
      have hf' := getPv_from hc (hsub List.mem_cons_self) hf hg
      simp only []
      generalize (if l.neg = true then 0 - (p : Int) else (p : Int)) = q
      by_cases hv : t.vals p = 0
      · rw [if_neg (by simp [hv])]
        cases scan q st with
        | none => exact litLoop_from hc hsub' hf'
        | some b =>
          cases b with
          | true => exact litLoop_from hc hsub' hf'
          | false => exact hf'
      · rw [if_pos hv]
        by_cases hs : t.vals p = if l.neg = true then -1 else 1
        · rw [if_pos hs]; exact hf'
        · rw [if_neg hs]; exact litLoop_from hc hsub' hf'

theorem feed_from {h : Const → BitVec 64} {all : List (Const × List Lit)} : ∀ {cs : List (Const × List Lit)} {s t : PSt},
    cs ⊆ all → From all s → feed h cs s = .ok t → From all t
  | [], s, t, _, hf, hk => by
    simp only [feed, Res.ok.injEq] at hk
    subst hk; exact hf
  | (g, cl) :: cs, s, t, hsub, hf, hk => by
    have h1 := litLoop_from (h := h) (g := g) (hsub List.mem_cons_self) (ls := cl) (st := []) (fun _ h => h) hf
    rw [feed] at hk
    simp only [create] at hk
    have hsub' : cs ⊆ all := fun x hx => hsub (List.mem_cons_of_mem _ hx)
    revert h1 hk
    cases litLoop h g cl [] s with
    | ub => intro k _; cases k
    | drop u => intro hk h1; exact feed_from hsub' h1 hk
    | done r u =>
      match r with
      | [] => intro k _; cases k
      | [x] => intro hk h1; exact feed_from hsub' (s := { u with cls := u.cls ++ [[x]], vals := fun p => if p = x.natAbs then (if x < 0 then -1 else 1) else u.vals p }) h1 hk
      | x :: y :: r => intro hk h1; exact feed_from hsub' (s := { u with cls := u.cls ++ [x :: y :: r] }) h1 hk

/-- terms as their own values; an atom is true when its number is -/
def termModel (v : Nat → Prop) (s : PSt) : Interp where
  D := Term
  cst := .const
  fn := .app
  tr t := ∃ b, ∃ e ∈ s.bk b, ground e.gc e.atom = t ∧ v e.pv

mutual
theorem eval_termModel (v : Nat → Prop) (s : PSt) (g : Const) : ∀ x : Term,
    eval (termModel v s) (fun _ => .const g) x = ground g x
  | .var _ => by simp [ground, eval]; rfl
  | .const _ => by simp [ground, eval, termModel]
  | .app f as => by
    have := evalL_termModel v s g as
    simp only [eval, this, ground, subst_app]
    rfl
theorem evalL_termModel (v : Nat → Prop) (s : PSt) (g : Const) : ∀ as : List Term,
    evalL (termModel v s) (fun _ => .const g) as = as.map (Term.subst fun _ => .const g)
  | [] => rfl
  | a :: as => by
    have h1 := eval_termModel v s g a
    have h2 := evalL_termModel v s g as
    simp only [ground] at h1
    simp only [evalL, h1, h2, List.map_cons]
    rfl
end

/-- equal instances of the atoms are looked for in the same bucket -/
def SlotOk (h : Const → BitVec 64) (cs : List (Const × List Lit)) : Prop :=
  ∀ c ∈ cs, ∀ l ∈ c.2, ∀ d ∈ cs, ∀ k ∈ d.2, ground c.1 l.atom = ground d.1 k.atom →
    atomSlot h c.1 l.atom = atomSlot h d.1 k.atom

theorem feed_exact {h : Const → BitVec 64} {cs : List (Const × List Lit)} {t : PSt} (hso : SlotOk h cs)
    (hf : feed h cs PSt.init = .ok t) (hs : Satisfiable t.cls) : ∃ I : Interp, ∀ c ∈ cs, InstTrue I c := by
  obtain ⟨v, hv⟩ := hs
  obtain ⟨hi, _, hcov⟩ := feed_spec (Inv.init h) hf
  have hfr : From cs t := feed_from (fun _ h => h) (fun b e he => by simp [PSt.init] at he) hf
  refine ⟨termModel v t, ?_⟩
  rintro ⟨g, cl⟩ hc
  obtain ⟨l, hl, x, ⟨e, he, hg, hx⟩, hsx⟩ := hcov _ hc v hv
  have h2 := (hi.ent _ e he).1
  refine ⟨l, hl, ?_⟩
  show if l.neg then ¬ (termModel v t).tr (eval (termModel v t) (fun _ => .const g) l.atom)
    else (termModel v t).tr (eval (termModel v t) (fun _ => .const g) l.atom)
  rw [eval_termModel]
  subst hx
  unfold LSat at hsx
  cases hn : l.neg with
  | true =>
    rw [hn] at hsx
    simp only [if_true, Int.neg_neg, Int.toNat_natCast] at hsx ⊢
    rintro ⟨b, e', he', hg', hv'⟩
    obtain ⟨c1, hc1, l1, hl1, q1, q2⟩ := hfr b e' he'
    have hb := hi.at_ b e' he'
    have : atomSlot h g l.atom = b := by
      rw [← hb, q1, q2]
      apply hso _ hc _ hl _ hc1 _ hl1
      rw [← q1, ← q2]; exact hg'.symm
    subst this
    have : e.pv = e'.pv := hi.bkt _ e he e' he' (hg.trans hg'.symm)
    rcases hsx with k | k
    · omega
    · rw [this] at k; exact k.2 hv'
  | false =>
    rw [hn] at hsx
    simp only [Bool.false_eq_true, if_false, Int.toNat_natCast] at hsx ⊢
    refine ⟨_, e, he, hg, ?_⟩
    rcases hsx with k | k
    · exact k.2
    · omega

/-! ### When the buckets agree -/

@[simp] theorem propBase_const (h : Const → BitVec 64) (g c : Const) : propBase h g (.inr c) = h c := rfl

mutual
theorem hash_ground (h : Const → BitVec 64) (g g' : Const) : ∀ x : Term, x.vars = [] →
    Vec.termHash (propBase h g) x = Vec.termHash (propBase h g') x
  | .var _, k => by simp at k
  | .const _, _ => by simp only [Vec.termHash, propBase_const]
  | .app f as, k => by
    simp only [Vec.termHash, propBase_const]
    rw [hashL_ground h g g' as (by simpa using k)]
theorem hashL_ground (h : Const → BitVec 64) (g g' : Const) : ∀ (as : List Term), Term.varsL as = [] → ∀ {z : BitVec 64},
    Vec.termHashL (propBase h g) z as = Vec.termHashL (propBase h g') z as
  | [], _, _ => by simp only [Vec.termHashL]
  | a :: as, k, z => by
    simp only [Term.varsL_cons, List.append_eq_nil_iff] at k
    simp only [Vec.termHashL]
    rw [hash_ground h g g' a k.1]
    exact hashL_ground h g g' as k.2
end

theorem ground_of_ground {g : Const} {x : Term} (h : x.vars = []) : ground g x = x := by
  have : x.subst (fun _ => .const g) = x.subst .var := subst_congr (fun v hv => by rw [h] at hv; cases hv)
  rw [ground, this, subst_id]

/-- clauses without variables -/
theorem slotOk_ground {h : Const → BitVec 64} {cs : List (Const × List Lit)}
    (hg : ∀ c ∈ cs, ∀ l ∈ c.2, l.atom.vars = []) : SlotOk h cs := by
  intro c hc l hl d hd k hk e
  rw [ground_of_ground (hg c hc l hl), ground_of_ground (hg d hd k hk)] at e
  rw [← e]
  unfold atomSlot
  rw [hash_ground h c.1 d.1 _ (hg c hc l hl)]

mutual
/-- the constant occurs in the term, not as a head symbol -/
def occ (g : Const) : Term → Bool
  | .var _ => false
  | .const c => c == g
  | .app _ as => occL g as
/-- in a list of terms -/
def occL (g : Const) : List Term → Bool
  | [] => false
  | a :: as => occ g a || occL g as
end

mutual
theorem hash_same (h : Const → BitVec 64) (g : Const) : ∀ x y : Term, occ g x = false → occ g y = false →
    ground g x = ground g y → Vec.termHash (propBase h g) x = Vec.termHash (propBase h g) y
  | .var _, .var _, _, _, _ => by simp only [Vec.termHash, propBase]
  | .var _, .const d, _, k, e => by simp [ground] at e; simp [occ, e] at k
  | .const c, .var _, k, _, e => by simp [ground] at e; simp [occ, e] at k
  | .const c, .const d, _, _, e => by simp [ground] at e; rw [e]
  | .app f as, .app f' bs, h1, h2, e => by
    simp only [ground, subst_app, Term.app.injEq] at e
    simp only [Vec.termHash, propBase_const]
    rw [hashL_same h g as bs (by simpa [occ] using h1) (by simpa [occ] using h2) e.2, e.1]
  | .var _, .app _ _, _, _, e => by simp [ground] at e
  | .const _, .app _ _, _, _, e => by simp [ground] at e
  | .app _ _, .var _, _, _, e => by simp [ground] at e
  | .app _ _, .const _, _, _, e => by simp [ground] at e
theorem hashL_same (h : Const → BitVec 64) (g : Const) : ∀ (as bs : List Term), occL g as = false → occL g bs = false →
    as.map (Term.subst fun _ => .const g) = bs.map (Term.subst fun _ => .const g) → ∀ {z : BitVec 64},
    Vec.termHashL (propBase h g) z as = Vec.termHashL (propBase h g) z bs
  | [], [], _, _, _, _ => rfl
  | [], _ :: _, _, _, e, _ => by simp at e
  | _ :: _, [], _, _, e, _ => by simp at e
  | a :: as, b :: bs, h1, h2, e, z => by
    simp only [List.map_cons, List.cons.injEq] at e
    simp only [occL, Bool.or_eq_false_iff] at h1 h2
    simp only [Vec.termHashL]
    rw [hash_same h g a b h1.1 h2.1 e.1]
    exact hashL_same h g as bs h1.2 h2.2 e.2
end

/-- one constant for all clauses, which occurs in none of them -/
theorem slotOk_new {h : Const → BitVec 64} {cs : List (Const × List Lit)} {g : Const}
    (hg : ∀ c ∈ cs, c.1 = g ∧ ∀ l ∈ c.2, occ g l.atom = false) : SlotOk h cs := by
  intro c hc l hl d hd k hk e
  obtain ⟨h1, h2⟩ := hg c hc
  obtain ⟨h3, h4⟩ := hg d hd
  rw [h1, h3] at e ⊢
  unfold atomSlot
  rw [hash_same h g _ _ (h2 l hl) (h4 k hk) e]

/-! ### The length of `prop_varvals` -/

theorem getPv_some {h : Const → BitVec 64} {g : Const} {s : PSt} {x : Term} (hc : s.counter ≤ s.cap) :
    ∃ p t, getPv h g s x = some (p, t) ∧ t.counter ≤ s.counter + 1 ∧ t.cap = s.cap := by
  rw [getPv]
  split
  · exact ⟨_, _, rfl, Nat.le_succ _, rfl⟩
  · rw [if_pos hc]; exact ⟨_, _, rfl, Nat.le_refl _, rfl⟩

theorem litLoop_ub {h : Const → BitVec 64} {g : Const} : ∀ {ls : List Lit} {st : List Int} {s : PSt},
    s.counter + ls.length ≤ s.cap + 1 →
    match litLoop h g ls st s with
    | .ub => False
    | .drop t => t.counter ≤ s.counter + ls.length ∧ t.cap = s.cap
    | .done _ t => t.counter ≤ s.counter + ls.length ∧ t.cap = s.cap
  | [], st, s, _ => by simp [litLoop]
  | l :: ls, st, s, hn => by
    simp only [List.length_cons] at hn
    obtain ⟨p, t, hg, h1, h2⟩ := getPv_some (h := h) (g := g) (s := s) (x := l.atom) (by omega)
    rw [litLoop, hg]
    simp only []
    have ih : ∀ st', match litLoop h g ls st' t with
        | .ub => False
        | .drop t => t.counter ≤ s.counter + (l :: ls).length ∧ t.cap = s.cap
        | .done _ t => t.counter ≤ s.counter + (l :: ls).length ∧ t.cap = s.cap := by
      intro st'
      have := litLoop_ub (h := h) (g := g) (ls := ls) (st := st') (s := t) (by omega)
      revert this
      cases litLoop h g ls st' t with
      | ub => exact id
      | drop u => intro k; exact ⟨by simp only [List.length_cons]; omega, k.2.trans h2⟩
      | done r u => intro k; exact ⟨by simp only [List.length_cons]; omega, k.2.trans h2⟩
    have hd : t.counter ≤ s.counter + (l :: ls).length ∧ t.cap = s.cap :=
      ⟨by simp only [List.length_cons]; omega, h2⟩
    generalize (if l.neg = true then 0 - (p : Int) else (p : Int)) = q
    by_cases hv : t.vals p = 0
    · rw [if_neg (by simp [hv])]
      cases scan q st with
      | none => exact ih _
      | some b =>
        cases b with
        | true => exact ih _
        | false => exact hd
    · rw [if_pos hv]
      by_cases hs : t.vals p = if l.neg = true then -1 else 1
      · rw [if_pos hs]; exact hd
      · rw [if_neg hs]; exact ih _

theorem feed_not_ub {h : Const → BitVec 64} : ∀ {cs : List (Const × List Lit)} {s : PSt},
    s.counter + (cs.map (fun c => c.2.length)).sum ≤ s.cap + 1 → feed h cs s ≠ .ub
  | [], s, _ => by simp [feed]
  | (g, cl) :: cs, s, hn => by
    simp only [List.map_cons, List.sum_cons] at hn
    have h1 := litLoop_ub (h := h) (g := g) (ls := cl) (st := []) (s := s) (by omega)
    rw [feed]
    simp only [create]
    revert h1
    cases litLoop h g cl [] s with
    | ub => intro k; exact k.elim
    | drop u => intro k; exact feed_not_ub (by rw [k.2]; omega)
    | done r u =>
      intro k
      match r with
      | [] => simp
      | [x] =>
        exact feed_not_ub (s := { u with cls := u.cls ++ [[x]], vals := fun p => if p = x.natAbs then (if x < 0 then -1 else 1) else u.vals p })
          (by show u.counter + _ ≤ u.cap + 1; rw [k.2]; omega)
      | x :: y :: r =>
        exact feed_not_ub (s := { u with cls := u.cls ++ [x :: y :: r] })
          (by show u.counter + _ ≤ u.cap + 1; rw [k.2]; omega)

/-- the clauses p(0), p(1), ... -/
def manyUnits (n : Nat) : List (Const × List Lit) :=
  (List.range n).map fun (i : Nat) => (.int 1, [⟨false, .app (.sym "p") [.const (.int i)]⟩])

theorem feed_append {h : Const → BitVec 64} : ∀ {cs ds : List (Const × List Lit)} {s t : PSt},
    feed h cs s = .ok t → feed h (cs ++ ds) s = feed h ds t
  | [], ds, s, t, hf => by
    simp only [feed, Res.ok.injEq] at hf
    subst hf; rfl
  | c :: cs, ds, s, t, hf => by
    rw [feed] at hf
    rw [List.cons_append, feed]
    revert hf
    cases create h c.1 c.2 s with
    | ub => intro k; cases k
    | contra => intro k; cases k
    | ok u => intro hf; exact feed_append hf

/-- the state after `n` of them -/
theorem feed_manyUnits {h : Const → BitVec 64} : ∀ n : Nat, n ≤ 999999 →
    ∃ t, feed h (manyUnits n) PSt.init = .ok t ∧ t.counter = n + 2 ∧ t.cap = 1000000 ∧
      (∀ p, n + 2 ≤ p → t.vals p = 0) ∧
      ∀ b, ∀ e ∈ t.bk b, ∃ i : Nat, i < n ∧ e.atom = .app (.sym "p") [.const (.int i)]
  | 0, _ => ⟨PSt.init, by simp [manyUnits, feed], rfl, rfl, fun _ _ => rfl, fun b e he => by simp [PSt.init] at he⟩
  | n + 1, hn => by
    obtain ⟨t, hf, h1, h2, h3, h4⟩ := feed_manyUnits (h := h) n (by omega)
    have hno : findPv (.int 1) (.app (.sym "p") [.const (.int n)])
        (t.bk (atomSlot h (.int 1) (.app (.sym "p") [.const (.int n)]))) = none := by
      cases hx : findPv (.int 1) (.app (.sym "p") [.const (.int n)])
        (t.bk (atomSlot h (.int 1) (.app (.sym "p") [.const (.int n)]))) with
      | none => rfl
      | some p =>
        obtain ⟨e, he, _, hg⟩ := findPv_some hx
        obtain ⟨i, hi, ha⟩ := h4 _ e he
        rw [ha] at hg
        simp [ground] at hg
        omega
    have hm : manyUnits (n + 1) = manyUnits n ++ [(.int 1, [⟨false, .app (.sym "p") [.const (.int n)]⟩])] := by
      simp [manyUnits, List.range_succ]
    rw [hm, feed_append hf, feed, create, litLoop, getPv, hno]
    simp only []
    rw [if_pos (by omega : t.counter ≤ t.cap)]
    simp only [if_true, ne_eq, not_true, if_false, Bool.false_eq_true, scan, List.nil_append, litLoop, feed]
    refine ⟨_, rfl, by simp only [h1], h2, ?_, ?_⟩
    · intro p hp
      have e1 : p ≠ ((t.counter : Nat) : Int).natAbs := by omega
      have e2 : p ≠ t.counter := by omega
      simp only [e1, e2, if_false]
      exact h3 p (by omega)
    · intro b e he
      simp only [] at he
      split at he
      · rcases List.mem_append.1 he with k | k
        · obtain ⟨i, hi, ha⟩ := h4 b e k; exact ⟨i, by omega, ha⟩
        · refine ⟨n, by omega, ?_⟩
          have : e = _ := List.mem_singleton.1 k
          rw [this]
      · obtain ⟨i, hi, ha⟩ := h4 b e he; exact ⟨i, by omega, ha⟩

theorem feed_manyUnits_ub {h : Const → BitVec 64} {n : Nat} (hn : n = 999999) : feed h (manyUnits (n + 1)) PSt.init = .ub := by
  obtain ⟨t, hf, h1, h2, _, h4⟩ := feed_manyUnits (h := h) n (by omega)
  have hm : manyUnits (n + 1) = manyUnits n ++ [(.int 1, [⟨false, .app (.sym "p") [.const (.int n)]⟩])] := by
    simp [manyUnits, List.range_succ]
  have hno : findPv (.int 1) (.app (.sym "p") [.const (.int n)])
      (t.bk (atomSlot h (.int 1) (.app (.sym "p") [.const (.int n)]))) = none := by
    cases hx : findPv (.int 1) (.app (.sym "p") [.const (.int n)])
      (t.bk (atomSlot h (.int 1) (.app (.sym "p") [.const (.int n)]))) with
    | none => rfl
    | some p =>
      obtain ⟨e, he, _, hg⟩ := findPv_some hx
      obtain ⟨i, hi, ha⟩ := h4 _ e he
      rw [ha] at hg
      simp [ground] at hg
      omega
  rw [hm, feed_append hf, feed, create, litLoop, getPv, hno]
  simp only []
  rw [if_neg (by omega : ¬ t.counter ≤ t.cap)]

end Gkc.PropInst
